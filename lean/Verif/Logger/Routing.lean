/-!
# Where log records go

`init` configures log4rs: a root logger, loggers for `metrics` and `cli`, and one for every configured
module.  How log4rs picks the logger of a record and when it refuses a configuration is modelled from its
published source (version 1.2).
-/

namespace Axon.Routing

/-- A logger name or the target of a record, split at `::`. -/
abbrev Name := List String

/-- `log::LevelFilter`. -/
inductive Filter where
  | off | error | warn | info | debug | trace
deriving DecidableEq, Repr

/-- `log::Level`. -/
inductive Level where
  | error | warn | info | debug | trace
deriving DecidableEq, Repr

def Filter.rank : Filter → Nat
  | .off => 0 | .error => 1 | .warn => 2 | .info => 3 | .debug => 4 | .trace => 5

def Level.rank : Level → Nat
  | .error => 1 | .warn => 2 | .info => 3 | .debug => 4 | .trace => 5

/-- common/logger/src/lib.rs:141-154 `convert_level`. -/
def convertLevel (s : String) : Filter :=
  if s = "off" then .off
  else if s = "error" then .error
  else if s = "info" then .info
  else if s = "warn" then .warn
  else if s = "debug" then .debug
  else if s = "trace" then .trace
  else .info

/-- The four appenders (lib.rs:120-124). -/
inductive Sink where
  | console | file | metrics | cli
deriving DecidableEq, Repr

/-- `log4rs::config::Logger`; all loggers of `init` have `additive(false)`. -/
structure Logger where
  name : Name
  level : Filter
  sinks : List Sink
deriving DecidableEq, Repr

/-- `log4rs::config::Config`. -/
structure Config where
  rootLevel : Filter
  rootSinks : List Sink
  loggers : List Logger
deriving DecidableEq, Repr

/-- The arguments of `init` (lib.rs:40-49) that matter here.  `modules`: a hash map, so no name occurs
twice. -/
structure Args where
  filter : String
  toConsole : Bool
  toFile : Bool
  metrics : Bool
  modules : List (Name × String)
deriving DecidableEq, Repr

/-- common/logger/src/lib.rs:94-103: the root logger's appenders. -/
def rootSinks (a : Args) : List Sink :=
  (if a.toConsole then [.console] else []) ++ (if a.toFile then [.file] else [])

/-- common/logger/src/lib.rs:94-135: the configuration before it is checked. -/
def rawConfig (a : Args) : Config :=
  { rootLevel := convertLevel a.filter
    rootSinks := rootSinks a
    loggers :=
      ⟨["metrics"], if a.metrics then .trace else .off, [.metrics]⟩ ::
      ⟨["cli"], .trace, [.cli, .console]⟩ ::
      a.modules.map fun m => ⟨m.1, convertLevel m.2, [.console, .file]⟩ }

/-- `check_logger_name` (log4rs), for names in parts. -/
def validName (n : Name) : Bool := !n.isEmpty && n.all (fun p => p != "")

/-- No name occurs twice. -/
def distinct : List Name → Bool
  | [] => true
  | n :: l => !l.contains n && distinct l

/-- `ConfigBuilder::build` (log4rs) and the `unwrap` of lib.rs:136: `none` is the panic. -/
def init (a : Args) : Option Config :=
  let c := rawConfig a
  if c.loggers.all (fun l => validName l.name) && distinct (c.loggers.map (·.name)) then some c
  else none

/-- The more specific of two loggers. -/
def pick (target : Name) (best : Option Logger) (l : Logger) : Option Logger :=
  if l.name.isPrefixOf target then
    match best with
    | none => some l
    | some b => if b.name.length < l.name.length then some l else some b
  else best

/-- `ConfiguredLogger::find` (log4rs): the logger with the longest name that is a prefix of the
target. -/
def find (c : Config) (target : Name) : Option Logger := c.loggers.foldl (pick target) none

/-- `Log::log` (log4rs): the appenders that receive a record. -/
def route (c : Config) (target : Name) (l : Level) : List Sink :=
  match find c target with
  | some g => if l.rank ≤ g.level.rank then g.sinks else []
  | none => if l.rank ≤ c.rootLevel.rank then c.rootSinks else []

/-! ## Lemmas -/

theorem foldl_pick (target : Name) : ∀ (ls : List Logger) (b : Option Logger),
    (∀ g, ls.foldl (pick target) b = some g →
      (g ∈ ls ∨ b = some g) ∧ (b = some g ∨ g.name.isPrefixOf target = true) ∧
      (∀ l ∈ ls, l.name.isPrefixOf target = true → l.name.length ≤ g.name.length) ∧
      (∀ x, b = some x → x.name.length ≤ g.name.length)) ∧
    (ls.foldl (pick target) b = none → b = none ∧ ∀ l ∈ ls, ¬ l.name.isPrefixOf target = true) := by
  intro ls
  induction ls with
  | nil =>
    intro b
    refine ⟨?_, ?_⟩
    · intro g h
      have h : b = some g := h
      refine ⟨.inr h, .inl h, ?_, ?_⟩
      · intro l hl; cases hl
      · intro x hx; rw [h] at hx; cases hx; exact Nat.le_refl _
    · intro h
      refine ⟨h, ?_⟩
      intro l hl; cases hl
  | cons l ls ih =>
    intro b
    obtain ⟨i1, i2⟩ := ih (pick target b l)
    refine ⟨?_, ?_⟩
    · intro g h
      obtain ⟨h1, h2, h3, h4⟩ := i1 g h
      by_cases hp : l.name.isPrefixOf target = true
      · cases b with
        | none =>
          have e : pick target none l = some l := by simp [pick, hp]
          rw [e] at h1 h2 h4
          have hl := h4 l rfl
          refine ⟨.inl ?_, .inr ?_, ?_, ?_⟩
          · rcases h1 with h1 | h1
            · exact List.mem_cons_of_mem _ h1
            · cases h1; exact List.mem_cons_self ..
          · rcases h2 with h2 | h2
            · cases h2; exact hp
            · exact h2
          · intro x hx hxp
            rcases List.mem_cons.1 hx with rfl | hx
            · exact hl
            · exact h3 x hx hxp
          · intro x hx; cases hx
        | some y =>
          by_cases hlt : y.name.length < l.name.length
          · have e : pick target (some y) l = some l := by simp [pick, hp, hlt]
            rw [e] at h1 h2 h4
            have hl := h4 l rfl
            refine ⟨.inl ?_, .inr ?_, ?_, ?_⟩
            · rcases h1 with h1 | h1
              · exact List.mem_cons_of_mem _ h1
              · cases h1; exact List.mem_cons_self ..
            · rcases h2 with h2 | h2
              · cases h2; exact hp
              · exact h2
            · intro x hx hxp
              rcases List.mem_cons.1 hx with rfl | hx
              · exact hl
              · exact h3 x hx hxp
            · intro x hx; cases hx; omega
          · have e : pick target (some y) l = some y := by simp [pick, hp, hlt]
            rw [e] at h1 h2 h4
            have hy := h4 y rfl
            refine ⟨?_, h2, ?_, h4⟩
            · rcases h1 with h1 | h1
              · exact .inl (List.mem_cons_of_mem _ h1)
              · exact .inr h1
            · intro x hx hxp
              rcases List.mem_cons.1 hx with rfl | hx
              · omega
              · exact h3 x hx hxp
      · have e : pick target b l = b := by simp [pick, hp]
        rw [e] at h1 h2 h4
        refine ⟨?_, h2, ?_, h4⟩
        · rcases h1 with h1 | h1
          · exact .inl (List.mem_cons_of_mem _ h1)
          · exact .inr h1
        · intro x hx hxp
          rcases List.mem_cons.1 hx with rfl | hx
          · exact absurd hxp hp
          · exact h3 x hx hxp
    · intro h
      obtain ⟨h1, h2⟩ := i2 h
      by_cases hp : l.name.isPrefixOf target = true
      · exfalso
        revert h1
        unfold pick
        rw [if_pos hp]
        cases b with
        | none => simp
        | some y => dsimp only; split <;> simp
      · have e : pick target b l = b := by simp [pick, hp]
        rw [e] at h1
        refine ⟨h1, ?_⟩
        intro x hx
        rcases List.mem_cons.1 hx with rfl | hx
        · exact hp
        · exact h2 x hx

theorem distinct_nodup : ∀ l : List Name, distinct l = true ↔ l.Nodup := by
  intro l
  induction l with
  | nil => simp [distinct]
  | cons n l ih => simp [distinct, ih]

end Axon.Routing

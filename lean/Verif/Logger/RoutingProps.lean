import Verif.Logger.Routing

/-!
# C114: the switches of the logger
-/

namespace Axon.Routing

/-! ## Specification -/

/-- The configured module that a target belongs to most closely. -/
def Closest (modules : List (Name × String)) (target : Name) (m : Name × String) : Prop :=
  m ∈ modules ∧ m.1 <+: target ∧ ∀ x ∈ modules, x.1 <+: target → x.1.length ≤ m.1.length

theorem isPrefix {a b : Name} : a.isPrefixOf b = true ↔ a <+: b := List.isPrefixOf_iff_prefix

/-- Two prefixes of one name with the same length are equal. -/
theorem prefix_eq {a b t : Name} (ha : a <+: t) (hb : b <+: t) (h : a.length = b.length) : a = b := by
  obtain ⟨x, rfl⟩ := ha
  obtain ⟨y, hy⟩ := hb
  exact ((List.append_inj hy h.symm).1).symm

theorem init_some {a : Args} {c : Config} (h : init a = some c) :
    c = rawConfig a ∧ (c.loggers.map (·.name)).Nodup ∧ ∀ l ∈ c.loggers, validName l.name = true := by
  unfold init at h
  dsimp only at h
  split at h
  next hc =>
    cases h
    rw [Bool.and_eq_true] at hc
    exact ⟨rfl, (distinct_nodup _).1 hc.2, fun l hl => List.all_eq_true.1 hc.1 l hl⟩
  · cases h

/-! ## Starting -/

/-- The node starts exactly when the configured module names are non-empty, have no empty part, and
none is `metrics` or `cli`. -/
theorem C114_start_iff (a : Args) (hn : (a.modules.map (·.1)).Nodup) :
    (init a).isSome = true ↔
      ∀ m ∈ a.modules, m.1 ≠ [] ∧ "" ∉ m.1 ∧ m.1 ≠ ["metrics"] ∧ m.1 ≠ ["cli"] := by
  have hv : ∀ n : Name, validName n = true ↔ n ≠ [] ∧ "" ∉ n := by
    intro n
    unfold validName
    simp only [Bool.and_eq_true, Bool.not_eq_true', List.isEmpty_eq_false_iff, List.all_eq_true,
      bne_iff_ne]
    constructor
    · rintro ⟨h1, h2⟩; exact ⟨h1, fun h => h2 _ h rfl⟩
    · rintro ⟨h1, h2⟩; exact ⟨h1, fun p hp e => h2 (e ▸ hp)⟩
  have hnames : ((rawConfig a).loggers.map (·.name)) = ["metrics"] :: ["cli"] :: a.modules.map (·.1) := by
    simp [rawConfig]
  unfold init
  dsimp only
  rw [hnames]
  have hd : distinct (["metrics"] :: ["cli"] :: a.modules.map (·.1)) = true ↔
      ∀ m ∈ a.modules, m.1 ≠ ["metrics"] ∧ m.1 ≠ ["cli"] := by
    rw [distinct_nodup]
    constructor
    · intro h m hm
      rw [List.nodup_cons, List.nodup_cons] at h
      refine ⟨fun e => h.1 (List.mem_cons_of_mem _ (e ▸ List.mem_map_of_mem hm)),
        fun e => h.2.1 (e ▸ List.mem_map_of_mem hm)⟩
    · intro h
      rw [List.nodup_cons, List.nodup_cons]
      refine ⟨?_, ?_, hn⟩
      · intro hm
        rcases List.mem_cons.1 hm with hm | hm
        · revert hm; decide
        · obtain ⟨m, hm1, hm2⟩ := List.mem_map.1 hm
          exact (h m hm1).1 hm2
      · intro hm
        obtain ⟨m, hm1, hm2⟩ := List.mem_map.1 hm
        exact (h m hm1).2 hm2
  have hall : (rawConfig a).loggers.all (fun l => validName l.name) = true ↔
      ∀ m ∈ a.modules, m.1 ≠ [] ∧ "" ∉ m.1 := by
    rw [List.all_eq_true]
    constructor
    · intro h m hm
      exact (hv _).1 (h ⟨m.1, convertLevel m.2, [.console, .file]⟩
        (List.mem_cons_of_mem _ (List.mem_cons_of_mem _ (List.mem_map.2 ⟨m, hm, rfl⟩))))
    · intro h l hl
      rcases List.mem_cons.1 hl with rfl | hl
      · exact (by decide : validName ["metrics"] = true)
      rcases List.mem_cons.1 hl with rfl | hl
      · exact (by decide : validName ["cli"] = true)
      obtain ⟨m, hm, rfl⟩ := List.mem_map.1 hl
      exact (hv _).2 (h m hm)
  split
  next h =>
    rw [Bool.and_eq_true, hall, hd] at h
    simp only [Option.isSome_some, true_iff]
    intro m hm
    exact ⟨(h.1 m hm).1, (h.1 m hm).2, (h.2 m hm).1, (h.2 m hm).2⟩
  next h =>
    rw [Bool.and_eq_true, hall, hd] at h
    simp only [Option.isSome_none, Bool.false_eq_true, false_iff]
    intro hx
    exact h ⟨fun m hm => ⟨(hx m hm).1, (hx m hm).2.1⟩, fun m hm => ⟨(hx m hm).2.2.1, (hx m hm).2.2.2⟩⟩

/-- False that every level for a module can be configured: one for `metrics` stops the node at the
start. -/
theorem C114_reserved_false :
    init ⟨"info", true, true, true, [(["metrics"], "info")]⟩ = none ∧
    (init ⟨"info", true, true, true, [(["core", "api"], "info")]⟩).isSome = true := by decide +kernel

/-! ## Records of configured modules -/

/-- A record of a configured module is written to the console and to the file exactly when its level
passes that module's level; the closest module decides, neither the filter nor the switches matter. -/
theorem C114_module (a : Args) (c : Config) (hc : init a = some c) (target : Name)
    (m : Name × String) (hm : Closest a.modules target m) (l : Level) :
    route c target l = if l.rank ≤ (convertLevel m.2).rank then [.console, .file] else [] := by
  obtain ⟨rfl, hnd, hval⟩ := init_some hc
  obtain ⟨hmem, hpre, hmax⟩ := hm
  have hlog : (⟨m.1, convertLevel m.2, [.console, .file]⟩ : Logger) ∈ (rawConfig a).loggers :=
    List.mem_cons_of_mem _ (List.mem_cons_of_mem _ (List.mem_map.2 ⟨m, hmem, rfl⟩))
  have hlen : 1 ≤ m.1.length := by
    have := hval _ hlog
    unfold validName at this
    rw [Bool.and_eq_true] at this
    cases h : m.1 with
    | nil => dsimp only at this; rw [h] at this; simp at this
    | cons x xs => simp
  obtain ⟨f1, f2⟩ := foldl_pick target (rawConfig a).loggers none
  unfold route find
  cases hf : (rawConfig a).loggers.foldl (pick target) none with
  | none => exact absurd (isPrefix.2 hpre) ((f2 hf).2 _ hlog)
  | some g =>
    obtain ⟨h1, h2, h3, _⟩ := f1 g hf
    have hg : g ∈ (rawConfig a).loggers := by
      rcases h1 with h1 | h1
      · exact h1
      · cases h1
    have hgp : g.name <+: target := by
      rcases h2 with h2 | h2
      · cases h2
      · exact isPrefix.1 h2
    have hge := h3 _ hlog (isPrefix.2 hpre)
    dsimp only at hge
    -- the chosen logger has the name of the closest module
    have hname : g.name = m.1 := by
      apply prefix_eq hgp hpre
      rcases List.mem_cons.1 hg with rfl | hg'
      · dsimp only [List.length] at hge ⊢; omega
      rcases List.mem_cons.1 hg' with rfl | hg'
      · dsimp only [List.length] at hge ⊢; omega
      obtain ⟨x, hx, rfl⟩ := List.mem_map.1 hg'
      have := hmax x hx hgp
      dsimp only at hge ⊢
      omega
    -- names are distinct
    have : g = ⟨m.1, convertLevel m.2, [.console, .file]⟩ := by
      have key : ∀ ls : List Logger, (ls.map (·.name)).Nodup → ∀ x ∈ ls, ∀ y ∈ ls, x.name = y.name → x = y := by
        intro ls
        induction ls with
        | nil => intro _ x hx; cases hx
        | cons z ls ih =>
          intro hn x hx y hy e
          rw [List.map_cons, List.nodup_cons] at hn
          rcases List.mem_cons.1 hx with rfl | hx
          · rcases List.mem_cons.1 hy with rfl | hy
            · rfl
            · exact absurd (e ▸ List.mem_map_of_mem hy) hn.1
          · rcases List.mem_cons.1 hy with rfl | hy
            · exact (hn.1 (List.mem_map.2 ⟨x, ‹x ∈ ls›, e⟩)).elim
            · exact ih hn.2 x hx y hy e
      exact key _ hnd _ hg _ hlog hname
    rw [this]

example : Closest [(["core"], "warn"), (["core", "api"], "debug")] ["core", "api", "jsonrpc"]
    (["core", "api"], "debug") := by
  refine ⟨by simp, ⟨["jsonrpc"], rfl⟩, ?_⟩
  intro x hx _
  simp only [List.mem_cons, List.not_mem_nil, or_false] at hx
  rcases hx with rfl | rfl <;> simp

/-- False that `log_to_console = false` and `log_to_file = false` silence them: with both off, an
error of a configured module is written to both. -/
theorem C114_switch_false :
    (init ⟨"off", false, false, false, [(["core", "api"], "debug")]⟩).map
      (fun c => (route c ["core", "api", "jsonrpc"] .error, route c ["core", "mempool"] .error,
        route c ["cli"] .trace)) =
      some ([.console, .file], [], [.cli, .console]) := by decide +kernel

/-! ## Other records -/

/-- A record of no configured module and neither of `metrics` nor of `cli` goes to the console exactly
when that is switched on and its level passes the filter; the same for the file; and nowhere else. -/
theorem C114_switches_partial (a : Args) (c : Config) (hc : init a = some c) (target : Name)
    (hm : ∀ m ∈ a.modules, ¬ m.1 <+: target) (h1 : target.head? ≠ some "metrics")
    (h2 : target.head? ≠ some "cli") (l : Level) :
    (Sink.console ∈ route c target l ↔ a.toConsole = true ∧ l.rank ≤ (convertLevel a.filter).rank) ∧
    (Sink.file ∈ route c target l ↔ a.toFile = true ∧ l.rank ≤ (convertLevel a.filter).rank) ∧
    Sink.metrics ∉ route c target l ∧ Sink.cli ∉ route c target l := by
  obtain ⟨rfl, _, _⟩ := init_some hc
  obtain ⟨f1, _⟩ := foldl_pick target (rawConfig a).loggers none
  have hhead : ∀ (x : String), [x].isPrefixOf target = true → target.head? = some x := by
    intro x hx
    obtain ⟨r, rfl⟩ := isPrefix.1 hx
    rfl
  unfold route find
  cases hf : (rawConfig a).loggers.foldl (pick target) none with
  | some g =>
    exfalso
    obtain ⟨g1, g2, _, _⟩ := f1 g hf
    have hgp : g.name.isPrefixOf target = true := by
      rcases g2 with g2 | g2
      · cases g2
      · exact g2
    rcases g1 with g1 | g1
    · rcases List.mem_cons.1 g1 with rfl | g1
      · exact h1 (hhead _ hgp)
      rcases List.mem_cons.1 g1 with rfl | g1
      · exact h2 (hhead _ hgp)
      obtain ⟨m, hm1, rfl⟩ := List.mem_map.1 g1
      exact hm m hm1 (isPrefix.1 hgp)
    · cases g1
  | none =>
    dsimp only
    show (Sink.console ∈ (if l.rank ≤ (convertLevel a.filter).rank then rootSinks a else []) ↔ _) ∧
      (Sink.file ∈ (if l.rank ≤ (convertLevel a.filter).rank then rootSinks a else []) ↔ _) ∧
      Sink.metrics ∉ (if l.rank ≤ (convertLevel a.filter).rank then rootSinks a else []) ∧
      Sink.cli ∉ (if l.rank ≤ (convertLevel a.filter).rank then rootSinks a else [])
    by_cases hl : l.rank ≤ (convertLevel a.filter).rank
    · simp only [hl, if_true, and_true]
      unfold rootSinks
      cases a.toConsole <;> cases a.toFile <;> simp
    · simp [hl]

example : (∀ m ∈ ([(["core"], "warn")] : List (Name × String)), ¬ m.1 <+: ["axon", "run"]) := by
  intro m hm
  simp only [List.mem_cons, List.not_mem_nil, or_false] at hm
  subst hm
  rintro ⟨x, hx⟩
  simp at hx

/-- Records of `metrics` go to the metrics file and nowhere else, and only when metrics are switched
on. -/
theorem C114_metrics (a : Args) (c : Config) (hc : init a = some c) (target : Name)
    (hm : ∀ m ∈ a.modules, ¬ m.1 <+: target) (h : target.head? = some "metrics") (l : Level) :
    route c target l = if a.metrics = true then [.metrics] else [] := by
  obtain ⟨rfl, _, _⟩ := init_some hc
  obtain ⟨f1, f2⟩ := foldl_pick target (rawConfig a).loggers none
  have hmp : ["metrics"].isPrefixOf target = true := by
    cases target with
    | nil => cases h
    | cons x xs =>
      simp only [List.head?_cons, Option.some.injEq] at h
      subst h
      exact isPrefix.2 ⟨xs, rfl⟩
  unfold route find
  cases hf : (rawConfig a).loggers.foldl (pick target) none with
  | none => exact absurd hmp ((f2 hf).2 _ (List.mem_cons_self ..))
  | some g =>
    obtain ⟨g1, g2, _, _⟩ := f1 g hf
    have hgp : g.name.isPrefixOf target = true := by
      rcases g2 with g2 | g2
      · cases g2
      · exact g2
    rcases g1 with g1 | g1
    · rcases List.mem_cons.1 g1 with rfl | g1
      · dsimp only
        cases a.metrics <;> cases l <;> decide
      rcases List.mem_cons.1 g1 with rfl | g1
      · exfalso
        obtain ⟨r, rfl⟩ := isPrefix.1 hgp
        simp at h
      · obtain ⟨m, hm1, rfl⟩ := List.mem_map.1 g1
        exact absurd (isPrefix.1 hgp) (hm m hm1)
    · cases g1

/-- Levels are read by their lower-case names; everything else means `info`. -/
theorem C114_levels (s : String) (f : Filter) (h : convertLevel s = f) :
    (f = .off → s = "off") ∧ (f = .error → s = "error") ∧ (f = .warn → s = "warn") ∧
    (f = .debug → s = "debug") ∧ (f = .trace → s = "trace") ∧
    (f = .info ↔ s ∉ ["off", "error", "warn", "debug", "trace"]) := by
  subst h
  unfold convertLevel
  by_cases h1 : s = "off"
  · subst h1; decide
  by_cases h2 : s = "error"
  · subst h2; decide
  by_cases h3 : s = "info"
  · subst h3; decide
  by_cases h4 : s = "warn"
  · subst h4; decide
  by_cases h5 : s = "debug"
  · subst h5; decide
  by_cases h6 : s = "trace"
  · subst h6; decide
  simp [h1, h2, h3, h4, h5, h6]

/-- So a level in capitals is silently something else: `"ERROR"` lets information through, and
`"OFF"` does not switch off. -/
theorem C114_capitals_false :
    convertLevel "ERROR" = .info ∧ convertLevel "OFF" = .info ∧ convertLevel "TRACE" = .info := by
  decide

end Axon.Routing

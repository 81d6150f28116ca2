import Verif.Network.BanList
import Verif.Util.Bytes

/-!
# C46: the ban list
-/

namespace Axon.Bans

open Axon.Assoc

/-! ## Specification -/

/-- The network an operation is about. -/
def Op.net : Op → Net
  | .ban net _ => net
  | .unban net => net

/-- The expiry time an operation sets. -/
def Op.till : Op → Option Nat
  | .ban _ till => some till
  | .unban _ => none

/-- What the latest operation on this network left: its expiry time, unless it was an unban. -/
def last (net : Net) (ops : List (Nat × Op)) : Option Nat :=
  (ops.filter fun e => e.2.net = net).getLast?.bind fun e => e.2.till

/-- Times do not decrease and none is after `t`. -/
def Timely (ops : List (Nat × Op)) (t : Nat) : Prop :=
  ops.Pairwise (fun a b => a.1 ≤ b.1) ∧ ∀ e ∈ ops, e.1 ≤ t

theorem last_snoc (net : Net) (ops : List (Nat × Op)) (time : Nat) (op : Op) :
    last net (ops ++ [(time, op)]) =
      match op with
      | .ban net' till => if net' = net then some till else last net ops
      | .unban net' => if net' = net then none else last net ops := by
  cases op with
  | ban net' till =>
    by_cases h : net' = net <;> simp [last, List.filter_append, List.filter_cons, Op.net, Op.till, h]
  | unban net' =>
    by_cases h : net' = net <;> simp [last, List.filter_append, List.filter_cons, Op.net, Op.till, h]

theorem run_snoc (b : BanList) (ops : List (Nat × Op)) (e : Nat × Op) :
    b.run (ops ++ [e]) = (b.run ops).step e := by simp [BanList.run]

theorem run_live (ops : List (Nat × Op)) (b0 : BanList) (hb0 : b0.inner = []) (t : Nat) (h : Timely ops t) :
    NodupKeys (b0.run ops).inner ∧
    ∀ net till, t < till → (Assoc.get (b0.run ops).inner net = some till ↔ last net ops = some till) := by
  induction ops using Axon.snoc_induction generalizing t with
  | nil => simp [BanList.run, last, hb0, get_nil, NodupKeys]
  | snoc ops e ih =>
    obtain ⟨time, op⟩ := e
    have ht : time ≤ t := h.2 (time, op) (by simp)
    obtain ⟨hn, hlive⟩ := ih time ⟨(List.pairwise_append.1 h.1).1, fun e he =>
      (List.pairwise_append.1 h.1).2.2 e he (time, op) (by simp)⟩
    rw [run_snoc]
    cases op with
    | unban net' =>
      refine ⟨nodupKeys_del hn _, ?_⟩
      intro net till hlt
      rw [last_snoc]
      simp only [BanList.step, BanList.unban, get_del]
      by_cases hh : net = net'
      · simp [hh]
      · rw [if_neg hh, if_neg (fun h => hh h.symm)]
        exact hlive net till (by omega)
    | ban net' till' =>
      have hput : NodupKeys (put ((b0.run ops).inner) net' till') := nodupKeys_put hn _ _
      have hcore : ∀ net till, t < till →
          (Assoc.get (put ((b0.run ops).inner) net' till') net = some till ↔
            last net (ops ++ [(time, .ban net' till')]) = some till) := by
        intro net till hlt
        rw [last_snoc, get_put]
        dsimp only
        by_cases hh : net = net'
        · rw [if_pos hh, if_pos hh.symm]
        · rw [if_neg hh, if_neg (fun h => hh h.symm)]
          exact hlive net till (by omega)
      simp only [BanList.step, BanList.ban]
      split
      · refine ⟨List.Pairwise.sublist List.filter_sublist hput, ?_⟩
        intro net till hlt
        rw [← hcore net till hlt]
        exact get_filter_live hput time net till (by omega)
      · exact ⟨hput, hcore⟩

/-- C46: at any time not before the operations made so far, an IP address is banned exactly when it
lies in a network whose latest operation was a ban with an expiry time still to come — however often
the list was cleaned meanwhile. -/
theorem C46_banned (ops : List (Nat × Op)) (t : Nat) (h : Timely ops t) (ip : Ip) :
    (BanList.new.run ops).isBanned ip t = true ↔
      ∃ net till, last net ops = some till ∧ t < till ∧ net.contains ip = true := by
  obtain ⟨hn, hlive⟩ := run_live ops BanList.new rfl t h
  rw [isBanned_iff hn]
  constructor
  · rintro ⟨net, till, h1, h2, h3⟩; exact ⟨net, till, (hlive net till h2).1 h1, h2, h3⟩
  · rintro ⟨net, till, h1, h2, h3⟩; exact ⟨net, till, (hlive net till h2).2 h1, h2, h3⟩

/-- C46: the number of bans made before, hence when cleaning happens, never changes an answer. -/
theorem C46_cleaning (ops : List (Nat × Op)) (t : Nat) (h : Timely ops t) (ip : Ip) (c : Nat) :
    (BanList.run ⟨[], c⟩ ops).isBanned ip t = (BanList.new.run ops).isBanned ip t := by
  obtain ⟨hn, hlive⟩ := run_live ops ⟨[], c⟩ rfl t h
  rw [Bool.eq_iff_iff, C46_banned ops t h, isBanned_iff hn]
  constructor
  · rintro ⟨net, till, h1, h2, h3⟩; exact ⟨net, till, (hlive net till h2).1 h1, h2, h3⟩
  · rintro ⟨net, till, h1, h2, h3⟩; exact ⟨net, till, (hlive net till h2).2 h1, h2, h3⟩

/-- C46: a ban holds until its expiry for every address of the network, whatever is done to other
networks meanwhile.  Missing: later bans of the very same network (see `C46_shorten_false`). -/
theorem C46_stays_partial (before rest : List (Nat × Op)) (now till t : Nat) (net : Net) (ip : Ip)
    (h : Timely (before ++ (now, .ban net till) :: rest) t) (ht : t < till) (hip : net.contains ip = true)
    (hrest : ∀ e ∈ rest, e.2 ≠ .unban net ∧ ∀ till', e.2 ≠ .ban net till') :
    (BanList.new.run (before ++ (now, .ban net till) :: rest)).isBanned ip t = true := by
  rw [C46_banned _ t h]
  refine ⟨net, till, ?_, ht, hip⟩
  clear h
  induction rest using Axon.snoc_induction with
  | nil => rw [last_snoc]; simp
  | snoc rest e ih =>
    obtain ⟨te, oe⟩ := e
    have := hrest (te, oe) (by simp)
    rw [← List.cons_append, ← List.append_assoc, last_snoc]
    cases oe with
    | ban net' till' =>
      dsimp only
      rw [if_neg (fun hh => this.2 till' (by rw [hh]))]
      exact ih (fun e he => hrest e (by simp [he]))
    | unban net' =>
      dsimp only
      rw [if_neg (fun hh => this.1 (by rw [hh]))]
      exact ih (fun e he => hrest e (by simp [he]))

/-- C46: once every ban of every network containing the address has expired, it is not banned. -/
theorem C46_expires (ops : List (Nat × Op)) (t : Nat) (h : Timely ops t) (ip : Ip)
    (hall : ∀ e ∈ ops, ∀ net till, e.2 = .ban net till → net.contains ip = true → till ≤ t) :
    (BanList.new.run ops).isBanned ip t = false := by
  cases hb : (BanList.new.run ops).isBanned ip t with
  | false => rfl
  | true =>
    obtain ⟨net, till, h1, h2, h3⟩ := (C46_banned ops t h ip).1 hb
    exfalso
    have : ∃ e ∈ ops, e.2 = .ban net till := by
      clear h hall hb
      induction ops using Axon.snoc_induction with
      | nil => simp [last] at h1
      | snoc ops e ih =>
        obtain ⟨te, oe⟩ := e
        rw [last_snoc] at h1
        cases oe with
        | ban net' till' =>
          dsimp only at h1
          by_cases hh : net' = net
          · rw [if_pos hh] at h1; cases h1
            exact ⟨(te, .ban net' till), by simp, by rw [← hh]⟩
          · rw [if_neg hh] at h1
            obtain ⟨e, he, h⟩ := ih h1
            exact ⟨e, by simp [he], h⟩
        | unban net' =>
          dsimp only at h1
          by_cases hh : net' = net
          · rw [if_pos hh] at h1; cases h1
          · rw [if_neg hh] at h1
            obtain ⟨e, he, h⟩ := ih h1
            exact ⟨e, by simp [he], h⟩
    obtain ⟨e, he, heq⟩ := this
    have := hall e he net till heq h3
    omega

/-- C46: banning a single host bans that host and no other. -/
theorem C46_host (ip ip' : Ip) (till now t : Nat) (h1 : now ≤ t) (h2 : t < till) :
    (BanList.new.run [(now, .ban (ipNet ip) till)]).isBanned ip' t = true ↔ ip' = ip := by
  rw [C46_banned _ t ⟨by simp, by simpa using h1⟩]
  constructor
  · rintro ⟨net, till', g1, g2, g3⟩
    by_cases hh : ipNet ip = net
    · rw [← hh] at g3; exact (contains_ipNet_iff ip ip').1 g3
    · simp [last, Op.net, hh] at g1
  · rintro rfl
    exact ⟨ipNet ip', till, by simp [last, Op.net, Op.till], h2, contains_ipNet ip'⟩

/-- C46 is false of the code: a later ban of the same network for a shorter time replaces the longer
one, so an address is free before the first ban expires. -/
theorem C46_shorten_false (ip : Ip) (now : Nat) :
    ∃ till, now + 1 < till ∧
      (BanList.new.run [(now, .ban (ipNet ip) till)]).isBanned ip (now + 1) = true ∧
      (BanList.new.run [(now, .ban (ipNet ip) till), (now, .ban (ipNet ip) (now + 1))]).isBanned ip (now + 1) = false := by
  refine ⟨now + 5, by omega, ?_, ?_⟩
  · exact (C46_host ip ip (now + 5) now (now + 1) (by omega) (by omega)).2 rfl
  · cases hb : (BanList.new.run [(now, .ban (ipNet ip) (now + 5)), (now, .ban (ipNet ip) (now + 1))]).isBanned ip (now + 1) with
    | false => rfl
    | true =>
      obtain ⟨net, till, h1, h2, h3⟩ := (C46_banned _ (now + 1) ⟨by simp, by simp⟩ ip).1 hb
      exfalso
      by_cases hh : ipNet ip = net <;> simp [last, Op.net, Op.till, hh] at h1
      omega

/-- C46: a ban aborts the process when its expiry time exceeds 64 bits, and only then. -/
theorem C46_overflow (b : BanList) (net : Net) (timeout now : Nat) :
    b.banNetwork net timeout now = .panic ↔ 2 ^ 64 ≤ now + timeout := by
  unfold BanList.banNetwork
  split
  · next h => simp only [reduceCtorEq, false_iff]; omega
  · next h => simp only [true_iff]; omega

/-- C46: bans of one address family say nothing about the other, so a host banned under its IPv4
address is not banned under the IPv6 address that maps it. -/
theorem C46_mapped_false (n till now : Nat) (h : now < till) :
    (BanList.new.run [(now, .ban (ipNet (.v4 n)) till)]).isBanned (.v4 n) now = true ∧
    (BanList.new.run [(now, .ban (ipNet (.v4 n)) till)]).isBanned (.v6 (0xffff * 2 ^ 32 + n)) now = false := by
  refine ⟨(C46_host _ _ till now now (by omega) h).2 rfl, ?_⟩
  cases hb : (BanList.new.run [(now, .ban (ipNet (.v4 n)) till)]).isBanned (.v6 (0xffff * 2 ^ 32 + n)) now with
  | false => rfl
  | true => cases (C46_host _ _ till now now (by omega) h).1 hb

/-! ## Examples -/

def exBans : List (Nat × Op) :=
  [(10, .ban (.v4 0x0a000000 8) 100), (20, .ban (.v4 0x0a010203 32) 50), (30, .unban (.v4 0x0a010203 32))]

example : Timely exBans 60 ∧ (BanList.new.run exBans).isBanned (.v4 0x0a010203) 60 = true ∧
    (BanList.new.run exBans).isBanned (.v4 0x0b010203) 60 = false ∧
    (BanList.new.run exBans).isBanned (.v4 0x0a010203) 100 = false := by
  unfold Timely exBans; decide +kernel

end Axon.Bans

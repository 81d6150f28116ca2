import Verif.Network.PeerFiles

/-!
# C124: the peer store on disk
-/

namespace Axon.PeerFiles

open Axon Axon.Assoc Axon.Peers Axon.Bans Axon.JsonText

/-! ## Specification -/

/-- What the two files say, if they exist. -/
abbrev Content := Option (List Info) × Option (List Banned)

/-- Every call of the operating system made for one file succeeded. -/
def Io.fine (io : Io) : Bool :=
  io.openOk && io.lenOk && io.writeOk && io.syncOk && (io.renameOk || (io.copyOk && io.removeOk))

/-- The dump was neither killed nor hindered. -/
def Dump.fine (e : Dump) : Bool := e.kill.isNone && e.env.dirs && e.env.addrs.fine && e.env.bans.fine

/-- What the files may hold after a dump, if before it they held one of `c`: after a dump that succeeded, what
was dumped; after another one, of each file the old or the new content, and a new ban list only beside a new
address book. -/
def knows (c : List Content) (e : Dump) : List Content :=
  if e.fine then [(some e.infos, some e.banned)]
  else c ++ c.map (fun p => (some e.infos, p.2)) ++ [(some e.infos, some e.banned)]

/-- A file is moved by renaming, or by a copy that is neither killed nor hindered. -/
def Io.Safe (io : Io) (kill : Option Nat) : Prop := io.renameOk = true ∨ (io.copyOk = true ∧ kill = none)

def Dump.Safe (e : Dump) : Prop := e.env.addrs.Safe e.kill ∧ e.env.bans.Safe e.kill

/-- The values of the fields' types. -/
structure Fits (x : Info) : Prop where
  lo : -2 ^ 31 ≤ x.score
  hi : x.score < 2 ^ 31
  conn : x.lastConn < 2 ^ 64
  tried : x.lastTried < 2 ^ 64
  attempts : x.attempts < 2 ^ 32
  pos : x.pos < 2 ^ 64

/-- The address is read as it was written. -/
def Readable (T : Texts) (a : MAddr) : Prop := T.readAddr (T.showAddr a) = some a

/-- `IpNetwork` has no longer prefixes. -/
def NetOk : Net → Prop
  | .v4 _ p => p ≤ 32
  | .v6 _ p => p ≤ 128

/-- Entries of an address book: one for each socket address, with a peer id and a readable address. -/
structure BookOk (T : Texts) (l : List Info) : Prop where
  once : l.Pairwise fun x y => x.addr.sock ≠ y.addr.sock
  peer : ∀ x ∈ l, x.addr.peer.isSome
  fits : ∀ x ∈ l, Fits x
  readable : ∀ x ∈ l, Readable T x.addr

/-- Entries of a ban list: one for each network. -/
structure BansOk (l : List Banned) : Prop where
  once : l.Pairwise fun x y => x.net ≠ y.net
  net : ∀ x ∈ l, NetOk x.net
  till : ∀ x ∈ l, x.till < 2 ^ 64
  created : ∀ x ∈ l, x.created < 2 ^ 64

/-- The store says what the entries say: under each socket address the same entry, and banned at each time from
`now` on are the same IP addresses. -/
structure Says (s : Store) (infos : List Info) (banned : List Banned) (now : Nat) : Prop where
  inv : Inv s.book
  book : ∀ k, s.book.book k = (infos.find? fun x => x.addr.sock = some k).map Info.strip
  bans : ∀ t ip, now ≤ t → (s.bans.isBanned ip t = true ↔ ∃ x ∈ banned, t < x.till ∧ x.net.contains ip = true)
  conn : s.conn = []

/-! ## Records are read as they were written -/

theorem field_of_zip {names : List Bytes} {vals : List Js} (hn : names.Nodup) (hl : vals.length = names.length) :
    ∀ (i : Nat) (k : Bytes) (v : Js), names[i]? = some k → vals[i]? = some v → field (names.zip vals) k = some v := by
  induction names generalizing vals with
  | nil => intro i k v hk; simp at hk
  | cons n ns ih =>
    intro i k v hk hv
    cases vals with
    | nil => simp at hl
    | cons w ws =>
      rw [List.nodup_cons] at hn
      have hlen : ws.length = ns.length := by simpa using hl
      simp only [field, List.zip_cons_cons, List.filter_cons]
      cases i with
      | zero =>
        simp only [List.getElem?_cons_zero, Option.some.injEq] at hk hv
        subst hk hv
        have hnone : (ns.zip ws).filter (fun e => decide (e.1 = n)) = [] := by
          rw [List.filter_eq_nil_iff]
          rintro ⟨a, b⟩ hab
          have := (List.of_mem_zip hab).1
          simp only [decide_eq_true_eq]
          rintro rfl
          exact hn.1 this
        simp [hnone]
      | succ i =>
        simp only [List.getElem?_cons_succ] at hk hv
        have hne : n ≠ k := by
          rintro rfl
          exact hn.1 (List.mem_of_getElem? hk)
        have := ih hn.2 hlen i k v hk hv
        simp only [field] at this
        simp only [hne, decide_false]
        exact this

theorem mapM_field (f : Bytes → Option Js) (names : List Bytes) (vals : List Js) (hl : vals.length = names.length)
    (h : ∀ (i : Nat) (k : Bytes) (v : Js), names[i]? = some k → vals[i]? = some v → f k = some v) :
    names.mapM f = some vals := by
  induction names generalizing vals with
  | nil => cases vals with
    | nil => rfl
    | cons => simp at hl
  | cons n ns ih =>
    cases vals with
    | nil => simp at hl
    | cons w ws =>
      have h0 := h 0 n w rfl rfl
      have := ih ws (by simpa using hl) (fun i k v hk hv => h (i + 1) k v (by simpa using hk) (by simpa using hv))
      simp [List.mapM_cons, h0, this]

theorem fieldsOf_zip {names : List Bytes} {vals : List Js} (hn : names.Nodup) (hl : vals.length = names.length) :
    fieldsOf names (.obj (names.zip vals)) = some vals :=
  mapM_field _ names vals hl (field_of_zip hn hl)

theorem infoKeys_nodup : infoKeys.Nodup := by decide +kernel

theorem banKeys_nodup : banKeys.Nodup := by decide +kernel

theorem readUint_num {bits n : Nat} (h : n < 2 ^ bits) : readUint bits (.num n) = some n := by
  simp only [readUint]
  rw [if_pos]
  · simp
  · constructor
    · omega
    · have : ((2 ^ bits : Nat) : Int) = 2 ^ bits := by simp
      omega

theorem readInfo_js {T : Texts} {x : Info} (hf : Fits x) (hr : Readable T x.addr) :
    readInfo T (infoJs T x) = some x := by
  unfold readInfo infoJs
  rw [fieldsOf_zip infoKeys_nodup rfl]
  simp only [readText, Option.bind_some]
  have h1 : T.readAddr (T.showAddr x.addr) = some x.addr := hr
  have h2 : readI32 (.num x.score) = some x.score := by
    simp only [readI32]
    rw [if_pos ⟨hf.lo, hf.hi⟩]
  rw [h1, h2, readUint_num hf.conn, readUint_num hf.tried, readUint_num hf.attempts, readUint_num hf.pos]

theorem mapM_map {α β : Type} (f : α → β) (g : β → Option α) (l : List α) (h : ∀ x ∈ l, g (f x) = some x) :
    (l.map f).mapM g = some l := by
  induction l with
  | nil => rfl
  | cons x l ih =>
    simp [List.mapM_cons, h x List.mem_cons_self, ih fun y hy => h y (List.mem_cons_of_mem _ hy)]

theorem readList_write {α : Type} (f : α → Js) (g : Js → Option α) (l : List α) (h : ∀ x ∈ l, g (f x) = some x) :
    readList g (write (.arr (l.map f))) = some l := by
  simp only [readList, read_write]
  exact mapM_map f g l h

theorem split_noslash {t : Bytes} (h : slash ∉ t) : split t = [t] := by
  induction t with
  | nil => rfl
  | cons c t ih =>
    have hc : c ≠ slash := fun hh => h (hh ▸ List.mem_cons_self)
    simp only [split, if_neg hc, ih fun hh => h (List.mem_cons_of_mem _ hh)]

theorem split_append {t : Bytes} (h : slash ∉ t) (r : Bytes) : split (t ++ slash :: r) = t :: split r := by
  induction t with
  | nil => simp [split]
  | cons c t ih =>
    have hc : c ≠ slash := fun hh => h (hh ▸ List.mem_cons_self)
    simp only [List.cons_append, split, if_neg hc, ih fun hh => h (List.mem_cons_of_mem _ hh)]

theorem split_ne_nil (t : Bytes) : split t ≠ [] := by
  induction t with
  | nil => simp [split]
  | cons c t ih =>
    simp only [split]
    split
    · simp
    · cases hs : split t with
      | nil => simp
      | cons => simp

theorem dec_ne_nil (n : Nat) : dec n ≠ [] := by
  obtain ⟨c, l, h, _⟩ := dec_head n
  rw [h]
  simp

theorem dec_all (n : Nat) : (dec n).all isDigit = true := List.all_eq_true.2 (decF_all (n + 1) n)

theorem value_dec (n : Nat) : value 0 (dec n) = n := value_decF (n + 1) n (by omega)

theorem dec_noplus (n : Nat) : (dec n).head? ≠ some 0x2b := by
  obtain ⟨c, l, h, h2⟩ := dec_head n
  rw [h]
  simp only [List.head?_cons, ne_eq, Option.some.injEq]
  exact ne_of_digit h2 (by decide)

theorem slash_dec (n : Nat) : slash ∉ dec n := by
  intro h
  have := decF_all (n + 1) n slash h
  exact absurd this (by decide)

theorem readPrefix_dec {max n : Nat} (h : n ≤ max) : readPrefix max (dec n) = some n := by
  simp only [readPrefix, if_neg (dec_noplus n), value_dec]
  rw [if_pos ⟨dec_ne_nil n, dec_all n, h⟩]

theorem readPort_dec {n : Nat} (h : n < 2 ^ 16) : readPort (dec n) = some n := by
  simp only [readPort, if_neg (dec_noplus n), value_dec]
  rw [if_pos ⟨dec_ne_nil n, dec_all n, h⟩]

theorem readNet_show {T : Texts} (hL : T.leaf.Ok) {net : Net} (h : NetOk net) : T.readNet (T.showNet net) = some net := by
  cases net with
  | v4 n p =>
    simp only [Texts.readNet, Texts.showNet]
    rw [split_append (hL.ipSlash _), split_noslash (slash_dec p)]
    simp only [hL.ip, readPrefix_dec (show p ≤ 32 from h), Option.map_some]
  | v6 n p =>
    simp only [Texts.readNet, Texts.showNet]
    rw [split_append (hL.ipSlash _), split_noslash (slash_dec p)]
    simp only [hL.ip, readPrefix_dec (show p ≤ 128 from h), Option.map_some]

theorem fieldsOf_ban (T : Texts) (x : Banned) :
    fieldsOf banKeys (banJs T x) = some [.str (T.showNet x.net), .num x.till, .str x.reason, .num x.created] :=
  fieldsOf_zip banKeys_nodup rfl

theorem readBan_js {T : Texts} (hL : T.leaf.Ok) {x : Banned} (h1 : NetOk x.net) (h2 : x.till < 2 ^ 64)
    (h3 : x.created < 2 ^ 64) : readBan T (banJs T x) = some x := by
  have e1 : (readText (.str (T.showNet x.net))).bind T.readNet = some x.net := readNet_show hL h1
  have e2 : readUint 64 (.num x.till) = some x.till := readUint_num h2
  have e3 : readUint 64 (.num x.created) = some x.created := readUint_num h3
  have e4 : readText (.str x.reason) = some x.reason := rfl
  simp only [readBan, fieldsOf_ban, e1, e2, e3, e4]

/-- C124: the file of the address book is read as the entries it was written from. -/
theorem C124_book_text {T : Texts} {l : List Info} (h : BookOk T l) : readList (readInfo T) (bookText T l) = some l :=
  readList_write _ _ l fun x hx => readInfo_js (h.fits x hx) (h.readable x hx)

/-- C124: the file of the ban list is read as the entries it was written from, reasons and all. -/
theorem C124_bans_text {T : Texts} (hL : T.leaf.Ok) {l : List Banned} (h : BansOk l) :
    readList (readBan T) (bansText T l) = some l :=
  readList_write _ _ l fun x hx => readBan_js hL (h.net x hx) (h.till x hx) (h.created x hx)

/-! ## Which addresses are readable -/

/-- No name holds a slash, and the ports are ports. -/
def Plain : Comp → Prop
  | .dns4 s => slash ∉ s
  | .tcp p => p < 2 ^ 16
  | _ => True

theorem split_text {L : Leaf} (hL : L.Ok) (c : Comp) (hc : Plain c) (r : Bytes) (p : List Bytes)
    (hp : split r = [] :: p) :
    ∃ q, split (c.text L ++ r) = [] :: q ∧ readParts L q = (readParts L p).map (c :: ·) := by
  have tok : ∀ {s t : Bytes}, slash ∉ s → slash ∉ t → split (slash :: (s ++ slash :: t) ++ r) = [] :: s :: t :: p := by
    intro s t hs ht
    have hr : split (t ++ r) = t :: p := by
      clear hs
      induction t with
      | nil => simpa using hp
      | cons c t ih =>
        have hc : c ≠ slash := fun hh => ht (hh ▸ List.mem_cons_self)
        simp only [List.cons_append, split, if_neg hc, ih fun hh => ht (List.mem_cons_of_mem _ hh)]
    simp only [List.cons_append, List.append_assoc, split, if_true]
    rw [split_append hs, hr]
  have tok1 : ∀ {s : Bytes}, slash ∉ s → split (slash :: s ++ r) = [] :: s :: p := by
    intro s hs
    have hr : split (s ++ r) = s :: p := by
      induction s with
      | nil => simpa using hp
      | cons c t ih =>
        have hc : c ≠ slash := fun hh => hs (hh ▸ List.mem_cons_self)
        simp only [List.cons_append, split, if_neg hc, ih fun hh => hs (List.mem_cons_of_mem _ hh)]
    simp only [List.cons_append, split, if_true, hr]
  cases c with
  | dns4 s =>
    refine ⟨_, tok (by decide +kernel) hc, ?_⟩
    rw [readParts.eq_def]
    dsimp only
    rw [if_neg (by decide +kernel), if_neg (by decide +kernel), if_neg (by decide +kernel)]
    rw [if_pos rfl]
  | ip4 n =>
    refine ⟨_, tok (by decide +kernel) (hL.ipSlash _), ?_⟩
    rw [readParts.eq_def]
    dsimp only
    rw [if_neg (by decide +kernel), if_neg (by decide +kernel), if_neg (by decide +kernel)]
    rw [if_neg (by decide +kernel), if_pos rfl, hL.ip]
  | ip6 n =>
    refine ⟨_, tok (by decide +kernel) (hL.ipSlash _), ?_⟩
    rw [readParts.eq_def]
    dsimp only
    rw [if_neg (by decide +kernel), if_neg (by decide +kernel), if_neg (by decide +kernel)]
    rw [if_neg (by decide +kernel), if_neg (by decide +kernel), if_pos rfl, hL.ip]
  | tcp n =>
    refine ⟨_, tok (by decide +kernel) (slash_dec n), ?_⟩
    rw [readParts.eq_def]
    dsimp only
    rw [if_neg (by decide +kernel), if_neg (by decide +kernel), if_neg (by decide +kernel)]
    rw [if_neg (by decide +kernel), if_neg (by decide +kernel), if_neg (by decide +kernel), if_pos rfl,
      readPort_dec hc]
  | p2p n =>
    refine ⟨_, tok (by decide +kernel) (hL.peerSlash n), ?_⟩
    rw [readParts.eq_def]
    dsimp only
    rw [if_neg (by decide +kernel), if_neg (by decide +kernel), if_neg (by decide +kernel)]
    rw [if_neg (by decide +kernel), if_neg (by decide +kernel), if_neg (by decide +kernel), if_neg (by decide +kernel),
      if_pos rfl, hL.peer]
  | tls =>
    refine ⟨_, tok1 (by decide +kernel), ?_⟩
    rw [readParts.eq_def]
    dsimp only
    rw [if_pos rfl]
  | ws =>
    refine ⟨_, tok1 (by decide +kernel), ?_⟩
    rw [readParts.eq_def]
    dsimp only
    rw [if_neg (by decide +kernel), if_pos rfl]
  | wss =>
    refine ⟨_, tok1 (by decide +kernel), ?_⟩
    rw [readParts.eq_def]
    dsimp only
    rw [if_neg (by decide +kernel), if_neg (by decide +kernel), if_pos rfl]

theorem split_addrText {L : Leaf} (hL : L.Ok) (cs : List Comp) (h : ∀ c ∈ cs, Plain c) :
    ∃ q, split (addrText L cs) = [] :: q ∧ readParts L q = some cs := by
  induction cs with
  | nil => exact ⟨[], rfl, rfl⟩
  | cons c cs ih =>
    obtain ⟨p, h1, h2⟩ := ih fun x hx => h x (List.mem_cons_of_mem _ hx)
    obtain ⟨q, h3, h4⟩ := split_text hL c (h c List.mem_cons_self) _ p h1
    refine ⟨q, ?_, by rw [h4, h2]; rfl⟩
    simp only [addrText, List.flatMap_cons] at h1 ⊢
    exact h3

/-- C124: an address whose names hold no slash is read as it was written. -/
theorem C124_address {T : Texts} (hL : T.leaf.Ok) {cs : List Comp} (h : ∀ c ∈ cs, Plain c)
    (hi : T.comps (T.index cs) = cs) : Readable T (T.addr cs) := by
  obtain ⟨q, h1, h2⟩ := split_addrText hL cs h
  simp only [Readable, Texts.readAddr, Texts.showAddr, Texts.addr, hi, readAddr, h1, h2, Option.map_some]

/-! ## What the calls leave behind -/

theorem mem_growing {set : Option Bytes → Dir} {t : Bytes} {n : Nat} {s : Dir} (h : s ∈ growing set t n) :
    ∃ k ≤ n, s = set (some (t.take k)) := by
  simp only [growing, List.mem_map, List.mem_range] at h
  obtain ⟨k, h1, h2⟩ := h
  exact ⟨k, by omega, h2.symm⟩

theorem main_setTmp (d : Dir) (f : File) (t : Option Bytes) : (d.setTmp f t).main = d.main := rfl

theorem move_rename {d : Dir} {f : File} {io : Io} (h : io.renameOk = true) :
    (∀ s ∈ (moveFile d f io).seen, s.main = (d.setMain f (d.tmp f)).main) ∧
      (moveFile d f io).last.main = (d.setMain f (d.tmp f)).main := by
  simp [moveFile, h, Dir.setTmp]

theorem move_copy {d : Dir} {f : File} {io : Io} {t : Bytes} (h : io.copyOk = true) (ht : d.tmp f = some t) :
    (moveFile d f io).last.main = (d.setMain f (some t)).main := by
  unfold moveFile
  split
  · simp [Dir.setTmp, ht]
  · simp only [h, if_true, ht, Option.getD_some, List.take_length]
    split <;> rfl

theorem move_ok (d : Dir) (f : File) (io : Io) :
    (moveFile d f io).ok = (io.renameOk || (io.copyOk && io.removeOk)) := by
  unfold moveFile
  cases io.renameOk <;> cases io.copyOk <;> cases io.removeOk <;> rfl

theorem tmp_setTmp (d : Dir) (f : File) (t : Option Bytes) : (d.setTmp f t).tmp f = t := by simp [Dir.setTmp]

theorem setMain_congr {d d' : Dir} (h : d.main = d'.main) (f : File) (t : Option Bytes) :
    (d.setMain f t).main = (d'.setMain f t).main := by simp [Dir.setMain, h]

/-- The directory in the middle of `dumpFile`: written and synchronised. -/
theorem dumpFile_ok (d : Dir) (f : File) (t : Bytes) (io : Io) : (dumpFile d f t io).ok = io.fine := by
  unfold dumpFile Io.fine
  cases io.openOk
  · rfl
  cases io.lenOk
  · rfl
  cases hw : io.writeOk
  · simp
  cases hs : io.syncOk
  · simp
  simp [move_ok]

theorem dumpFile_seen {d : Dir} {f : File} {t : Bytes} {io : Io} (h : io.renameOk = true) :
    ∀ s ∈ (dumpFile d f t io).seen, s.main = d.main ∨ s.main = (d.setMain f (some t)).main := by
  intro s hs
  unfold dumpFile at hs
  split at hs
  · cases hs
  · dsimp only at hs
    split at hs
    · rw [List.mem_singleton.1 hs]
      exact .inl rfl
    · have hgrow : ∀ n s, s ∈ growing (Dir.setTmp ((d.setTmp f (some ((d.tmp f).getD []))).setTmp f (some [])) f) t n →
          s.main = d.main := by
        intro n s hs
        obtain ⟨k, _, rfl⟩ := mem_growing hs
        rfl
      split at hs
      · rcases List.mem_cons.1 hs with rfl | hs
        · exact .inl rfl
        rcases List.mem_cons.1 hs with rfl | hs
        · exact .inl rfl
        exact .inl (hgrow _ _ hs)
      · rename_i hws
        have hw : io.writeOk = true := by
          cases hh : io.writeOk
          · simp [hh] at hws
          · rfl
        rw [List.cons_append, List.cons_append] at hs
        rcases List.mem_cons.1 hs with rfl | hs
        · exact .inl rfl
        rcases List.mem_cons.1 hs with rfl | hs
        · exact .inl rfl
        rcases List.mem_append.1 hs with hs | hs
        · exact .inl (hgrow _ _ hs)
        · right
          rw [(move_rename h).1 s hs]
          rw [tmp_setTmp, hw]
          simp [Dir.setMain, Dir.setTmp]

theorem dumpFile_last {d : Dir} {f : File} {t : Bytes} {io : Io} (h : io.renameOk = true ∨ io.copyOk = true) :
    ((dumpFile d f t io).last.main = d.main ∧ (dumpFile d f t io).ok = false) ∨
      (dumpFile d f t io).last.main = (d.setMain f (some t)).main := by
  unfold dumpFile
  split
  · exact .inl ⟨rfl, rfl⟩
  · dsimp only
    split
    · exact .inl ⟨rfl, rfl⟩
    · split
      · exact .inl ⟨rfl, rfl⟩
      · rename_i hws
        have hw : io.writeOk = true := by
          cases hh : io.writeOk
          · simp [hh] at hws
          · rfl
        right
        dsimp only
        rcases h with h | h
        · rw [(move_rename h).2, tmp_setTmp, hw]
          simp [Dir.setMain, Dir.setTmp]
        · rw [move_copy h (tmp_setTmp _ _ _), hw]
          simp [Dir.setMain, Dir.setTmp]

/-- C124: a dump returns `Ok` exactly when every call made for it succeeded. -/
theorem C124_result (T : Texts) (d : Dir) (e : Dump) : e.done T d = e.fine := by
  unfold Dump.done Dump.fine dumpDir
  cases hd : e.env.dirs
  · simp
  · simp only [Bool.not_true, Bool.false_eq_true, if_false]
    cases h1 : e.env.addrs.fine
    · simp [dumpFile_ok, h1]
    · simp [dumpFile_ok, h1]

/-- The two files in place. -/
def Dir.pair (d : Dir) : Option Bytes × Option Bytes := (d.main .addrs, d.main .bans)

theorem after_pair (T : Texts) (d : Dir) (e : Dump) (h : e.Safe) :
    (e.fine = true → (e.after T d).pair = (some (bookText T e.infos), some (bansText T e.banned))) ∧
    ((e.after T d).pair = d.pair ∨ (e.after T d).pair = (some (bookText T e.infos), d.main .bans) ∨
      (e.after T d).pair = (some (bookText T e.infos), some (bansText T e.banned))) := by
  obtain ⟨hA, hB⟩ := h
  generalize ha : bookText T e.infos = a
  generalize hb : bansText T e.banned = b
  have hA' : e.env.addrs.renameOk = true ∨ e.env.addrs.copyOk = true := hA.imp_right (·.1)
  have hB' : e.env.bans.renameOk = true ∨ e.env.bans.copyOk = true := hB.imp_right (·.1)
  have p1 : ∀ {s s' : Dir}, s.main = s'.main → s.pair = s'.pair := by
    intro s s' hh; simp [Dir.pair, hh]
  have p2 : ∀ {s s' : Dir}, s.main = (s'.setMain .addrs (some a)).main → s.pair = (some a, s'.main .bans) := by
    intro s s' hh; simp [Dir.pair, hh, Dir.setMain]
  have p3 : ∀ {s s' : Dir}, s.main = (s'.setMain .bans (some b)).main → s.pair = (s'.main .addrs, some b) := by
    intro s s' hh; simp [Dir.pair, hh, Dir.setMain]
  have hlast : (e.env.dirs = true → e.env.addrs.fine = true → e.env.bans.fine = true →
        (dumpDir d a b e.env).last.pair = (some a, some b)) ∧
      ((dumpDir d a b e.env).last.pair = d.pair ∨ (dumpDir d a b e.env).last.pair = (some a, d.main .bans) ∨
        (dumpDir d a b e.env).last.pair = (some a, some b)) := by
    unfold dumpDir
    cases hd : e.env.dirs
    · exact ⟨fun hh => (by cases hh), .inl rfl⟩
    · simp only [Bool.not_true, Bool.false_eq_true, if_false]
      have l1 := dumpFile_last (d := d) (f := .addrs) (t := a) hA'
      cases h1 : (dumpFile d .addrs a e.env.addrs).ok
      · simp only [Bool.not_false, if_true]
        rw [dumpFile_ok] at h1
        refine ⟨fun _ hh => by rw [h1] at hh; (cases hh), ?_⟩
        rcases l1 with l1 | l1
        · exact .inl (p1 l1.1)
        · exact .inr (.inl (p2 l1))
      · simp only [Bool.not_true, Bool.false_eq_true, if_false]
        have l1' : (dumpFile d .addrs a e.env.addrs).last.main = (d.setMain .addrs (some a)).main := by
          rcases l1 with l1 | l1
          · rw [h1] at l1; cases l1.2
          · exact l1
        have q1 := p2 l1'
        have l2 := dumpFile_last (d := (dumpFile d .addrs a e.env.addrs).last) (f := .bans) (t := b) hB'
        refine ⟨fun _ _ h3 => ?_, ?_⟩
        · rcases l2 with l2 | l2
          · rw [dumpFile_ok, h3] at l2; cases l2.2
          · rw [p3 l2]
            have : (dumpFile d .addrs a e.env.addrs).last.main .addrs = some a := congrArg Prod.fst q1
            rw [this]
        · rcases l2 with l2 | l2
          · exact .inr (.inl ((p1 l2.1).trans q1))
          · right; right
            rw [p3 l2]
            have : (dumpFile d .addrs a e.env.addrs).last.main .addrs = some a := congrArg Prod.fst q1
            rw [this]
  have hseen : e.env.addrs.renameOk = true → e.env.bans.renameOk = true → ∀ s ∈ (dumpDir d a b e.env).seen,
      s.pair = d.pair ∨ s.pair = (some a, d.main .bans) ∨ s.pair = (some a, some b) := by
    intro r1 r2 s hs
    unfold dumpDir at hs
    split at hs
    · cases hs
    · dsimp only at hs
      have k1 : ∀ s ∈ (dumpFile d .addrs a e.env.addrs).seen,
          s.pair = d.pair ∨ s.pair = (some a, d.main .bans) ∨ s.pair = (some a, some b) := by
        intro s hs
        rcases dumpFile_seen r1 s hs with hh | hh
        · exact .inl (p1 hh)
        · exact .inr (.inl (p2 hh))
      split at hs
      · exact k1 s hs
      · rename_i hok
        rcases List.mem_append.1 hs with hs | hs
        · exact k1 s hs
        · have l1' : (dumpFile d .addrs a e.env.addrs).last.main = (d.setMain .addrs (some a)).main := by
            rcases dumpFile_last (d := d) (f := .addrs) (t := a) hA' with l1 | l1
            · rw [l1.2] at hok; simp at hok
            · exact l1
          have q1 := p2 l1'
          rcases dumpFile_seen r2 s hs with hh | hh
          · exact .inr (.inl ((p1 hh).trans q1))
          · right; right
            rw [p3 hh]
            have : (dumpFile d .addrs a e.env.addrs).last.main .addrs = some a := congrArg Prod.fst q1
            rw [this]
  unfold Dump.after Dump.fine
  rw [ha, hb]
  cases hk : e.kill with
  | none =>
    dsimp only
    refine ⟨fun hf => ?_, hlast.2⟩
    simp only [Option.isNone_none, Bool.true_and, Bool.and_eq_true] at hf
    exact hlast.1 hf.1.1 hf.1.2 hf.2
  | some k =>
    dsimp only
    refine ⟨fun hf => by simp at hf, ?_⟩
    have r1 : e.env.addrs.renameOk = true := by
      rcases hA with h | h
      · exact h
      · rw [hk] at h; cases h.2
    have r2 : e.env.bans.renameOk = true := by
      rcases hB with h | h
      · exact h
      · rw [hk] at h; cases h.2
    cases hg : (d :: (dumpDir d a b e.env).seen)[k]? with
    | none => exact hlast.2
    | some s =>
      simp only [Option.getD_some]
      rcases List.mem_cons.1 (List.mem_of_getElem? hg) with rfl | hs
      · exact .inl rfl
      · exact hseen r1 r2 s hs

/-- The texts of a content. -/
def Content.texts (T : Texts) (c : Content) : Option Bytes × Option Bytes :=
  (c.1.map (bookText T), c.2.map (bansText T))

theorem history_pair (T : Texts) (h : List Dump) (hs : ∀ e ∈ h, e.Safe) (d : Dir) (cs : List Content)
    (hd : ∃ c ∈ cs, d.pair = Content.texts T c) :
    ∃ c ∈ h.foldl knows cs, (history T d h).pair = Content.texts T c := by
  induction h generalizing d cs with
  | nil => exact hd
  | cons e h ih =>
    simp only [List.foldl_cons, history]
    refine ih (fun x hx => hs x (List.mem_cons_of_mem _ hx)) (e.after T d) (knows cs e) ?_
    obtain ⟨c, hc, hp⟩ := hd
    obtain ⟨h1, h2⟩ := after_pair T d e (hs e List.mem_cons_self)
    unfold knows
    split
    · rename_i hf
      exact ⟨_, List.mem_singleton.2 rfl, h1 hf⟩
    · rcases h2 with h2 | h2 | h2
      · exact ⟨c, by simp [hc], h2.trans hp⟩
      · refine ⟨(some e.infos, c.2), ?_, ?_⟩
        · simp only [List.append_assoc, List.mem_append, List.mem_map]
          exact .inr (.inl ⟨c, hc, rfl⟩)
        · rw [h2]
          have : d.main .bans = c.2.map (bansText T) := congrArg Prod.snd hp
          rw [this]
          rfl
      · exact ⟨(some e.infos, some e.banned), by simp, h2⟩

/-- C124: whatever fails and whenever the process is killed, over any number of dumps, the files in place are
whole: they hold what the last successful dump wrote, or what a later one was about to write.  Missing: files that
cannot be renamed (`C124_torn_false`), and loss of power. -/
theorem C124_crash_partial (T : Texts) (h : List Dump) (hs : ∀ e ∈ h, e.Safe) :
    ∃ c ∈ h.foldl knows [(none, none)],
      (history T Dir.empty h).main .addrs = c.1.map (bookText T) ∧
      (history T Dir.empty h).main .bans = c.2.map (bansText T) := by
  obtain ⟨c, h1, h2⟩ := history_pair T h hs Dir.empty [(none, none)] ⟨_, List.mem_singleton.2 rfl, rfl⟩
  exact ⟨c, h1, congrArg Prod.fst h2, congrArg Prod.snd h2⟩

/-! ## What a node makes of the files -/

theorem load_list (l : List Info) (hd : l.Pairwise fun x y => x.addr.sock ≠ y.addr.sock)
    (hp : ∀ x ∈ l, x.addr.peer.isSome) :
    ∃ m, Manager.load l = .ok m ∧ Inv m ∧
      ∀ k, m.book k = (l.find? fun x => x.addr.sock = some k).map Info.strip := by
  obtain ⟨m, h1, h2, h3⟩ := run_refines (l.map Op.add) inv_empty
  refine ⟨m, h1, h2, ?_⟩
  intro k
  have hempty : Manager.empty.book = fun _ => none := by funext s; simp [Manager.book, Manager.empty, get_nil]
  rw [h3, hempty, Peers.loadBook l _ hd hp (fun _ _ _ _ => rfl)]
  cases l.find? (fun x => decide (x.addr.sock = some k)) <;> rfl

theorem last_map {l : List Banned} (hn : l.Pairwise fun x y => x.net ≠ y.net) (now : Nat) (net : Net) (till : Nat) :
    last net (l.map fun x => (now, Bans.Op.ban x.net x.till)) = some till ↔ ∃ x ∈ l, x.net = net ∧ x.till = till := by
  induction l using Axon.snoc_induction with
  | nil => simp [last]
  | snoc l x ih =>
    rw [List.pairwise_append] at hn
    rw [List.map_append]
    simp only [List.map_cons, List.map_nil]
    rw [last_snoc]
    dsimp only
    by_cases hx : x.net = net
    · rw [if_pos hx]
      constructor
      · intro h
        exact ⟨x, by simp, hx, Option.some.inj h⟩
      · rintro ⟨y, hy, h1, h2⟩
        rcases List.mem_append.1 hy with hy | hy
        · exact absurd (h1.trans hx.symm) (hn.2.2 y hy x (by simp))
        · rw [List.mem_singleton.1 hy] at h2
          rw [h2]
    · rw [if_neg hx, ih hn.1]
      constructor
      · rintro ⟨y, hy, h⟩; exact ⟨y, List.mem_append_left _ hy, h⟩
      · rintro ⟨y, hy, h1, h2⟩
        rcases List.mem_append.1 hy with hy | hy
        · exact ⟨y, hy, h1, h2⟩
        · rw [List.mem_singleton.1 hy] at h1
          exact absurd h1 hx

theorem load_bans {l : List Banned} (hn : l.Pairwise fun x y => x.net ≠ y.net) (now t : Nat) (ht : now ≤ t) (ip : Ip) :
    (BanList.new.run (l.map fun x => (now, .ban x.net x.till))).isBanned ip t = true ↔
      ∃ x ∈ l, t < x.till ∧ x.net.contains ip = true := by
  have htime : Timely (l.map fun x => (now, Bans.Op.ban x.net x.till)) t := by
    constructor
    · rw [List.pairwise_map]
      exact List.Pairwise.imp (fun _ => Nat.le_refl _) hn
    · intro e he
      obtain ⟨x, _, rfl⟩ := List.mem_map.1 he
      exact ht
  rw [C46_banned _ t htime]
  constructor
  · rintro ⟨net, till, h1, h2, h3⟩
    obtain ⟨x, hx, rfl, rfl⟩ := (last_map hn now net till).1 h1
    exact ⟨x, hx, h2, h3⟩
  · rintro ⟨x, hx, h1, h2⟩
    exact ⟨x.net, x.till, (last_map hn now _ _).2 ⟨x, hx, rfl, rfl⟩, h1, h2⟩

theorem load_content {T : Texts} (hL : T.leaf.Ok) {d : Dir} {c : Content} (now : Nat)
    (hA : d.main .addrs = c.1.map (bookText T)) (hB : d.main .bans = c.2.map (bansText T))
    (h1 : ∀ l, c.1 = some l → BookOk T l) (h2 : ∀ l, c.2 = some l → BansOk l) :
    ∃ s, load T d now = .ok s ∧ Says s (c.1.getD []) (c.2.getD []) now := by
  have hbans : ∀ t ip, now ≤ t → ((bansOf T d now).isBanned ip t = true ↔
      ∃ x ∈ c.2.getD [], t < x.till ∧ x.net.contains ip = true) := by
    intro t ip ht
    unfold bansOf
    rw [hB]
    cases hc : c.2 with
    | none => simp [BanList.new, BanList.isBanned, get_nil]
    | some l =>
      simp only [Option.map_some, Option.bind_some, C124_bans_text hL (h2 l hc), Option.getD_some]
      exact load_bans (h2 l hc).once now t ht ip
  unfold load bookOf
  rw [hA]
  cases hc : c.1 with
  | none =>
    simp only [Option.map_none, Option.bind_none]
    refine ⟨_, rfl, inv_empty, ?_, hbans, rfl⟩
    intro k
    simp [Manager.book, Manager.empty, get_nil]
  | some l =>
    simp only [Option.map_some, Option.bind_some, C124_book_text (h1 l hc)]
    obtain ⟨m, e1, e2, e3⟩ := load_list l (h1 l hc).once (h1 l hc).peer
    rw [e1]
    exact ⟨_, rfl, e2, e3, hbans, rfl⟩

theorem knows_from (h : List Dump) (cs : List Content) (P : List Info → Prop) (Q : List Banned → Prop)
    (hh : ∀ e ∈ h, P e.infos ∧ Q e.banned)
    (hc : ∀ c ∈ cs, (∀ l, c.1 = some l → P l) ∧ (∀ l, c.2 = some l → Q l)) :
    ∀ c ∈ h.foldl knows cs, (∀ l, c.1 = some l → P l) ∧ (∀ l, c.2 = some l → Q l) := by
  induction h generalizing cs with
  | nil => exact hc
  | cons e h ih =>
    simp only [List.foldl_cons]
    refine ih _ (fun x hx => hh x (List.mem_cons_of_mem _ hx)) ?_
    obtain ⟨hP, hQ⟩ := hh e List.mem_cons_self
    have hnew : (∀ l, some e.infos = some l → P l) ∧ (∀ l, some e.banned = some l → Q l) :=
      ⟨fun l hl => by cases hl; exact hP, fun l hl => by cases hl; exact hQ⟩
    intro c hcm
    unfold knows at hcm
    split at hcm
    · rw [List.mem_singleton.1 hcm]; exact hnew
    · rw [List.append_assoc, List.mem_append, List.mem_append, List.mem_map, List.mem_singleton] at hcm
      rcases hcm with hcm | ⟨p, hp, rfl⟩ | rfl
      · exact hc c hcm
      · exact ⟨hnew.1, (hc p hp).2⟩
      · exact hnew

/-- C124: a node that starts after any history of dumps, failures and kills has the addresses and the bans of the
last successful dump, or of a later one.  Missing: as in `C124_crash_partial`, addresses that are not readable
(`C124_poison_false`), and what was learnt after the dump (`C124_unsaved_false`). -/
theorem C124_restart_partial {T : Texts} (hL : T.leaf.Ok) (h : List Dump) (hs : ∀ e ∈ h, e.Safe)
    (hg : ∀ e ∈ h, BookOk T e.infos ∧ BansOk e.banned) (now : Nat) :
    ∃ c ∈ h.foldl knows [(none, none)], ∃ s, load T (history T Dir.empty h) now = .ok s ∧
      Says s (c.1.getD []) (c.2.getD []) now := by
  obtain ⟨c, h1, h2, h3⟩ := C124_crash_partial T h hs
  obtain ⟨g1, g2⟩ := knows_from h [(none, none)] (BookOk T) BansOk hg (by simp) c h1
  exact ⟨c, h1, load_content hL now h2 h3 g1 g2⟩

/-- C124: in particular, a node that starts right after a successful dump has exactly what was dumped, whatever
happened before. -/
theorem C124_last {T : Texts} (hL : T.leaf.Ok) (d : Dir) (e : Dump) (hf : e.fine = true) (hs : e.Safe)
    (h1 : BookOk T e.infos) (h2 : BansOk e.banned) (now : Nat) :
    ∃ s, load T (e.after T d) now = .ok s ∧ Says s e.infos e.banned now := by
  have hp := (after_pair T d e hs).1 hf
  exact load_content (c := (some e.infos, some e.banned)) hL now (congrArg Prod.fst hp) (congrArg Prod.snd hp)
    (fun l hl => by cases hl; exact h1) (fun l hl => by cases hl; exact h2)

/-- C124: the entries of every address book are such that they can be dumped, in any order: one for each socket
address, each with a peer id. -/
theorem C124_entries {m : Manager} (hi : Inv m) {l : List Info} (hl : l.Perm m.values) :
    (l.Pairwise fun x y => x.addr.sock ≠ y.addr.sock) ∧ (∀ x ∈ l, x.addr.peer.isSome) ∧
      ∀ k, (l.find? fun x => x.addr.sock = some k).map Info.strip = m.book k := by
  have hmem : ∀ x, x ∈ l ↔ ∃ id, Assoc.get m.infos id = some x := by
    intro x
    rw [hl.mem_iff]
    simp only [Manager.values, List.mem_map]
    constructor
    · rintro ⟨e, he, rfl⟩; exact ⟨e.1, get_of_mem hi.nodupI he⟩
    · rintro ⟨id, hid⟩; exact ⟨(id, x), mem_of_get hid, rfl⟩
  refine ⟨?_, ?_, ?_⟩
  · refine (hl.pairwise_iff (fun hh => fun he => hh he.symm)).2 ?_
    unfold Manager.values
    rw [List.pairwise_map]
    have hn := hi.nodupI
    unfold NodupKeys at hn
    refine List.Pairwise.imp_of_mem ?_ hn
    intro e f he hf hne heq
    obtain ⟨s, k1, k2⟩ := hi.back e.1 e.2 (get_of_mem hi.nodupI he)
    obtain ⟨t, k3, k4⟩ := hi.back f.1 f.2 (get_of_mem hi.nodupI hf)
    rw [k1, k3] at heq; cases heq
    rw [k2] at k4
    exact hne (Option.some.inj k4)
  · intro x hx
    obtain ⟨id, hid⟩ := (hmem x).1 hx
    obtain ⟨p, _, k1, _⟩ := hi.peer id x hid
    rw [k1]; rfl
  · intro s
    cases hf : l.find? (fun x => decide (x.addr.sock = some s)) with
    | some x =>
      have hxs : x.addr.sock = some s := by simpa using List.find?_some hf
      obtain ⟨id, hid⟩ := (hmem x).1 (List.mem_of_find?_eq_some hf)
      obtain ⟨t, k1, k2⟩ := hi.back id x hid
      rw [hxs] at k1; cases k1
      simp [Manager.book, k2, hid]
    | none =>
      cases hid : Assoc.get m.byAddr s with
      | none => simp [Manager.book, hid]
      | some id =>
        obtain ⟨x, hx, hxs⟩ := hi.addr s id hid
        have := List.find?_eq_none.1 hf x ((hmem x).2 ⟨id, hx⟩)
        simp [hxs] at this

/-- C124: whatever bytes the files hold, a node starts, with a well-formed store that knows no address and no
network the files do not name. -/
theorem C124_any (T : Texts) (d : Dir) (now : Nat) :
    ∃ s, load T d now = .ok s ∧ Inv s.book ∧ s.conn = [] ∧
      (∀ k x, s.book.book k = some x → ∃ t l y, d.main .addrs = some t ∧ readList (readInfo T) t = some l ∧ y ∈ l ∧
        y.strip = x ∧ y.addr.sock = some k) ∧
      (∀ t ip, now ≤ t → s.bans.isBanned ip t = true → ∃ u l y, d.main .bans = some u ∧
        readList (readBan T) u = some l ∧ y ∈ l ∧ t < y.till ∧ y.net.contains ip = true) := by
  have hbans : ∀ t ip, now ≤ t → (bansOf T d now).isBanned ip t = true → ∃ u l y, d.main .bans = some u ∧
        readList (readBan T) u = some l ∧ y ∈ l ∧ t < y.till ∧ y.net.contains ip = true := by
    intro t ip ht hb
    unfold bansOf at hb
    cases hm : d.main .bans with
    | none => rw [hm] at hb; simp [BanList.new, BanList.isBanned, get_nil] at hb
    | some u =>
      rw [hm] at hb
      simp only [Option.bind_some] at hb
      cases hr : readList (readBan T) u with
      | none => rw [hr] at hb; simp [BanList.new, BanList.isBanned, get_nil] at hb
      | some l =>
        rw [hr] at hb
        dsimp only at hb
        have htime : Timely (l.map fun x => (now, Bans.Op.ban x.net x.till)) t := by
          constructor
          · rw [List.pairwise_map]
            exact List.pairwise_of_forall (fun _ _ => Nat.le_refl _)
          · intro e he
            obtain ⟨x, _, rfl⟩ := List.mem_map.1 he
            exact ht
        obtain ⟨net, till, g1, g2, g3⟩ := (C46_banned _ t htime ip).1 hb
        unfold last at g1
        cases hg : ((l.map fun x => (now, Bans.Op.ban x.net x.till)).filter fun e => e.2.net = net).getLast? with
        | none => rw [hg] at g1; cases g1
        | some e =>
          rw [hg] at g1
          have hme := List.mem_of_getLast? hg
          rw [List.mem_filter, List.mem_map] at hme
          obtain ⟨⟨x, hx, rfl⟩, hnet⟩ := hme
          simp only [Option.bind_some, Bans.Op.till, Option.some.injEq] at g1
          have hnet' : x.net = net := of_decide_eq_true hnet
          exact ⟨u, l, x, rfl, hr, hx, by omega, by rw [hnet']; exact g3⟩
  unfold load bookOf
  cases hm : (d.main .addrs).bind (readList (readInfo T)) with
  | none =>
    refine ⟨_, rfl, inv_empty, rfl, ?_, hbans⟩
    intro k x hx
    simp [Manager.book, Manager.empty, get_nil] at hx
  | some l =>
    obtain ⟨m, h1, h2, h3⟩ := run_refines (l.map Peers.Op.add) inv_empty
    have h1' : Manager.load l = .ok m := h1
    simp only [h1']
    refine ⟨_, rfl, h2, rfl, ?_, hbans⟩
    intro k x hx
    cases hmain : d.main .addrs with
    | none => rw [hmain] at hm; cases hm
    | some t =>
      rw [hmain] at hm
      refine ⟨t, l, ?_⟩
      dsimp only at hx
      rw [h3] at hx
      have key : ∀ (l : List Info) (b : Book), (l.map Peers.Op.add).foldl Book.step b k = some x →
          b k = some x ∨ ∃ y ∈ l, y.strip = x ∧ y.addr.sock = some k := by
        intro l
        induction l with
        | nil => intro b hb; exact .inl hb
        | cons y l ih =>
          intro b hb
          simp only [List.map_cons, List.foldl_cons, Book.step] at hb
          rcases ih _ hb with hb | ⟨z, hz, hh⟩
          · unfold Book.add at hb
            split at hb
            · rename_i hc
              split at hb
              · exact .inr ⟨y, List.mem_cons_self, Option.some.inj hb, hc.1⟩
              · cases hb
            · exact .inl hb
          · exact .inr ⟨z, List.mem_cons_of_mem _ hz, hh⟩
      rcases key l _ hx with hh | ⟨y, hy, h5, h6⟩
      · simp [Manager.book, Manager.empty, get_nil] at hh
      · exact ⟨y, rfl, hm, hy, h5, h6⟩

/-- These entries are those of the store, in any order. -/
structure Of (s : Store) (e : Dump) : Prop where
  infos : e.infos.Perm s.book.values
  banned : (e.banned.map fun x => (x.net, x.till)).Perm s.bans.inner

/-- What holds of every store: the book is well formed, and the ban list has one entry for each network. -/
structure Sound (s : Store) : Prop where
  inv : Inv s.book
  once : NodupKeys s.bans.inner
  bans : ∀ e ∈ s.bans.inner, NetOk e.1 ∧ e.2 < 2 ^ 64

theorem sound_ban {b : BanList} {net : Net} {till now : Nat} (h1 : NodupKeys b.inner)
    (h2 : ∀ e ∈ b.inner, NetOk e.1 ∧ e.2 < 2 ^ 64) (h3 : NetOk net) (h4 : till < 2 ^ 64) :
    NodupKeys (b.ban net till now).inner ∧ ∀ e ∈ (b.ban net till now).inner, NetOk e.1 ∧ e.2 < 2 ^ 64 := by
  have g1 : NodupKeys (put b.inner net till) := nodupKeys_put h1 _ _
  have g2 : ∀ e ∈ put b.inner net till, NetOk e.1 ∧ e.2 < 2 ^ 64 := by
    intro e he
    have he' := get_of_mem g1 (k := e.1) (v := e.2) he
    rw [get_put] at he'
    split at he'
    · rename_i hk
      cases he'
      exact ⟨hk ▸ h3, h4⟩
    · exact h2 e (mem_of_get he')
  unfold BanList.ban
  dsimp only
  split
  · refine ⟨List.Pairwise.filter _ g1, ?_⟩
    intro e he
    exact g2 e (List.mem_filter.1 he).1
  · exact ⟨g1, g2⟩

theorem sound_banAddr {s s' : Store} {a : MAddr} {timeout now : Nat} (h : Sound s)
    (hb : s.banAddr a timeout now = .ok s') : Sound s' := by
  obtain ⟨h1, _, _, h4⟩ := banAddr_spec h.inv hb
  cases hk : a.sock with
  | none =>
    have : s'.bans = s.bans := by
      unfold Store.banAddr at hb
      rw [hk] at hb
      obtain ⟨m', r, e1, _⟩ := remove_spec h.inv a
      dsimp only at hb
      rw [e1] at hb
      cases hb; rfl
    exact ⟨h1, this ▸ h.once, this ▸ h.bans⟩
  | some k =>
    obtain ⟨e1, e2⟩ := h4 k hk
    have := sound_ban (now := now) h.once h.bans (net := ipNet k.ip) (till := now + timeout)
      (by cases k.ip <;> simp [ipNet, NetOk]) e1
    exact ⟨h1, e2 ▸ this.1, e2 ▸ this.2⟩

theorem sound_step {s s' : Store} (h : Sound s) (op : SOp) (hs : s.step op = .ok s') : Sound s' := by
  cases op with
  | addAddr a c now =>
    obtain ⟨s1, r, h1, h2, h3, _⟩ := addAddr_spec h.inv a c now
    simp only [Store.step, h1] at hs
    cases hs
    exact ⟨h2, h3 ▸ h.once, h3 ▸ h.bans⟩
  | addOutbound a now =>
    obtain ⟨s1, h1, h2, h3, _⟩ := addOutbound_spec h.inv a now
    simp only [Store.step, h1] at hs
    cases hs
    exact ⟨h2, h3 ▸ h.once, h3 ▸ h.bans⟩
  | connect a =>
    simp only [Store.step, Store.connect] at hs
    cases hp : a.peer with
    | none => rw [hp] at hs; cases hs
    | some p => rw [hp] at hs; cases hs; exact ⟨h.inv, h.once, h.bans⟩
  | disconnect a =>
    simp only [Store.step, Store.disconnect] at hs
    cases hs
    cases hp : a.peer with
    | none => exact h
    | some p => exact ⟨h.inv, h.once, h.bans⟩
  | tried a now =>
    cases hs
    exact ⟨(update_spec h.inv a (markTried_ok now)).1, h.once, h.bans⟩
  | fetch flt count now ch =>
    obtain ⟨s1, l, h1, h2, _, h3, _⟩ := fetch_spec h.inv flt count now ch
    simp only [Store.step, h1] at hs
    cases hs
    exact ⟨h2, h3 ▸ h.once, h3 ▸ h.bans⟩
  | ban a timeout now => exact sound_banAddr h hs
  | report a now =>
    simp only [Store.step, Store.report] at hs
    cases hg : s.book.get a with
    | none => rw [hg] at hs; cases hs; exact h
    | some x =>
      rw [hg] at hs
      dsimp only at hs
      by_cases hx : x.score < 40
      · rw [if_pos hx] at hs
        cases hb : s.banAddr a (24 * 3600 * 1000) now with
        | ok s1 => rw [hb] at hs; cases hs; exact sound_banAddr h hb
        | err => rw [hb] at hs; cases hs
        | panic => rw [hb] at hs; cases hs
      · rw [if_neg hx] at hs
        cases hs; exact h

theorem readUint_lt {b n : Nat} {j : Js} (h : readUint b j = some n) : n < 2 ^ b := by
  unfold readUint at h
  split at h
  · rename_i k
    split at h
    · rename_i hk
      have := Option.some.inj h
      have h2 : k < ((2 ^ b : Nat) : Int) := by simpa using hk.2
      omega
    · cases h
  · cases h

theorem readNet_ok {T : Texts} {t : Bytes} {n : Net} (h : T.readNet t = some n) : NetOk n := by
  have hp : ∀ m u k, readPrefix m u = some k → k ≤ m := by
    intro m u k hk
    unfold readPrefix at hk
    dsimp only at hk
    generalize (if u.head? = some 0x2b then u.drop 1 else u) = d at hk
    split at hk
    · rename_i hc; cases hk; exact hc.2.2
    · cases hk
  unfold Texts.readNet at h
  split at h
  · split at h
    · cases h; simp [NetOk]
    · cases h; simp [NetOk]
    · cases h
  · split at h
    · obtain ⟨k, hk, rfl⟩ := Option.map_eq_some_iff.1 h
      exact hp _ _ _ hk
    · obtain ⟨k, hk, rfl⟩ := Option.map_eq_some_iff.1 h
      exact hp _ _ _ hk
    · cases h
  · cases h

theorem readBan_ok {T : Texts} {j : Js} {x : Banned} (h : readBan T j = some x) : NetOk x.net ∧ x.till < 2 ^ 64 := by
  unfold readBan at h
  split at h
  · rename_i a u r c _
    cases h1 : (readText a).bind T.readNet with
    | none => rw [h1] at h; cases h
    | some n =>
      cases h2 : readUint 64 u with
      | none => rw [h1, h2] at h; cases h
      | some v =>
        cases h3 : readText r with
        | none => rw [h1, h2, h3] at h; cases h
        | some w =>
          cases h4 : readUint 64 c with
          | none => rw [h1, h2, h3, h4] at h; cases h
          | some z =>
            rw [h1, h2, h3, h4] at h
            cases h
            refine ⟨?_, readUint_lt h2⟩
            obtain ⟨q, _, hq⟩ := Option.bind_eq_some_iff.1 h1
            exact readNet_ok hq
  · cases h

theorem mapM_all {α : Type} {f : Js → Option α} {P : α → Prop} (hf : ∀ j x, f j = some x → P x) (l : List Js)
    (r : List α) (h : l.mapM f = some r) : ∀ x ∈ r, P x := by
  induction l generalizing r with
  | nil => cases h; simp
  | cons j l ih =>
    rw [List.mapM_cons] at h
    cases h1 : f j with
    | none => rw [h1] at h; cases h
    | some a =>
      cases h2 : l.mapM f with
      | none => rw [h1, h2] at h; cases h
      | some q =>
        rw [h1, h2] at h
        cases h
        intro x hx
        rcases List.mem_cons.1 hx with rfl | hx
        · exact hf _ _ h1
        · exact ih q h2 x hx

/-- C124: such is the store of every node: the empty one, what is made of any files, and what any operation makes
of such a store. -/
theorem C124_sound (T : Texts) :
    Sound Store.empty ∧ (∀ d now s, load T d now = .ok s → Sound s) ∧
      (∀ s op s', Sound s → s.step op = .ok s' → Sound s') := by
  refine ⟨⟨inv_empty, .nil, by simp [Store.empty, BanList.new]⟩, ?_, fun s op s' h hs => sound_step h op hs⟩
  intro d now s hs
  obtain ⟨s', h1, h2, _⟩ := C124_any T d now
  rw [h1] at hs
  cases hs
  have hb : s.bans = bansOf T d now := by
    unfold load at h1
    split at h1
    · cases h1; rfl
    · cases h1
    · cases h1
  have key : ∀ (l : List Banned) (b : BanList), (∀ x ∈ l, NetOk x.net ∧ x.till < 2 ^ 64) → NodupKeys b.inner →
      (∀ e ∈ b.inner, NetOk e.1 ∧ e.2 < 2 ^ 64) →
      NodupKeys (b.run (l.map fun x => (now, .ban x.net x.till))).inner ∧
        ∀ e ∈ (b.run (l.map fun x => (now, .ban x.net x.till))).inner, NetOk e.1 ∧ e.2 < 2 ^ 64 := by
    intro l
    induction l with
    | nil => intro b _ g1 g2; exact ⟨g1, g2⟩
    | cons x l ih =>
      intro b hx g1 g2
      obtain ⟨k1, k2⟩ := sound_ban (now := now) g1 g2 (hx x List.mem_cons_self).1 (hx x List.mem_cons_self).2
      exact ih _ (fun y hy => hx y (List.mem_cons_of_mem _ hy)) k1 k2
  have : NodupKeys (bansOf T d now).inner ∧ ∀ e ∈ (bansOf T d now).inner, NetOk e.1 ∧ e.2 < 2 ^ 64 := by
    unfold bansOf
    split
    · rename_i l hl
      obtain ⟨t, _, ht⟩ := Option.bind_eq_some_iff.1 hl
      refine key l _ ?_ .nil (by simp [BanList.new])
      unfold readList at ht
      split at ht
      · exact mapM_all (P := fun x => NetOk x.net ∧ x.till < 2 ^ 64) (fun j x hx => readBan_ok hx) _ _ ht
      · cases ht
    · exact ⟨.nil, by simp [BanList.new]⟩
  exact ⟨h2, hb ▸ this.1, hb ▸ this.2⟩

/-- C124: the store that a node makes of the files of a successful dump is the store that was dumped, but for the
connections. -/
theorem C124_round {T : Texts} (hL : T.leaf.Ok) {s : Store} (hr : Sound s) (d : Dir) (e : Dump) (hf : e.fine = true)
    (hs : e.Safe) (ho : Of s e) (hfit : ∀ x ∈ e.infos, Fits x ∧ Readable T x.addr)
    (hban : ∀ x ∈ e.banned, x.created < 2 ^ 64) (now : Nat) :
    ∃ s', load T (e.after T d) now = .ok s' ∧ Sound s' ∧ s'.book.book = s.book.book ∧
      (∀ t ip, now ≤ t → s'.bans.isBanned ip t = s.bans.isBanned ip t) ∧ s'.conn = [] := by
  obtain ⟨h1, h2, h3⟩ := C124_entries hr.inv ho.infos
  have hnd := hr.once
  have hb : e.banned.Pairwise fun x y => x.net ≠ y.net := by
    have : (e.banned.map fun x => (x.net, x.till)).Pairwise fun x y => x.1 ≠ y.1 :=
      (ho.banned.pairwise_iff (fun hh => fun he => hh he.symm)).2 hnd
    rw [List.pairwise_map] at this
    exact this
  have hin : ∀ x ∈ e.banned, NetOk x.net ∧ x.till < 2 ^ 64 := by
    intro x hx
    exact hr.bans (x.net, x.till) ((ho.banned.mem_iff).1 (List.mem_map.2 ⟨x, hx, rfl⟩))
  obtain ⟨s', g1, g2⟩ := C124_last hL d e hf hs ⟨h1, h2, fun x hx => (hfit x hx).1, fun x hx => (hfit x hx).2⟩
    ⟨hb, fun x hx => (hin x hx).1, fun x hx => (hin x hx).2, hban⟩ now
  refine ⟨s', g1, (C124_sound T).2.1 _ _ _ g1, ?_, ?_, g2.conn⟩
  · funext k
    rw [g2.book, h3]
  · intro t ip ht
    rw [Bool.eq_iff_iff, g2.bans t ip ht, isBanned_iff hnd]
    constructor
    · rintro ⟨x, hx, k1, k2⟩
      exact ⟨x.net, x.till, get_of_mem hnd ((ho.banned.mem_iff).1 (List.mem_map.2 ⟨x, hx, rfl⟩)), k1, k2⟩
    · rintro ⟨net, till, k0, k1, k2⟩
      obtain ⟨x, hx, he⟩ := List.mem_map.1 ((ho.banned.mem_iff).2 (mem_of_get k0))
      cases he
      exact ⟨x, hx, k1, k2⟩

theorem dumpOf_of (s : Store) : Of s (dumpOf s) := by
  refine ⟨List.Perm.refl _, ?_⟩
  simp only [dumpOf, List.map_map]
  have : ((fun x : Banned => (x.net, x.till)) ∘ fun e : Net × Nat => ⟨e.1, e.2, [], 0⟩) = id := rfl
  rw [this, List.map_id]

/-- C124: when a dump is due, what the node knows at that moment is what a restart would find; the next dump is
due within a day. -/
theorem C124_tick {T : Texts} (hL : T.leaf.Ok) {n n' : Node} (hr : Sound n.store)
    (hfit : ∀ x ∈ n.store.book.values, Fits x ∧ Readable T x.addr) (now : Nat) (op : SOp) (hd : n.next ≤ now)
    (he : n.event T now op = .ok n') (t0 : Nat) :
    now < n'.next ∧ n'.next ≤ now + day ∧ Sound n'.store ∧
    ∃ s', load T n'.dir t0 = .ok s' ∧ s'.book.book = n.store.book.book ∧
      ∀ t ip, t0 ≤ t → s'.bans.isBanned ip t = n.store.bans.isBanned ip t := by
  unfold Node.event at he
  rw [if_pos hd] at he
  dsimp only at he
  cases hs : n.store.step op with
  | err => rw [hs] at he; cases he
  | panic => rw [hs] at he; cases he
  | ok s1 =>
    rw [hs] at he
    cases he
    obtain ⟨s', h1, _, h2, h3, _⟩ := C124_round hL hr n.dir (dumpOf n.store) rfl ⟨.inl rfl, .inl rfl⟩ (dumpOf_of _) hfit
      (by
        intro x hx
        obtain ⟨e, _, rfl⟩ := List.mem_map.1 hx
        simp) t0
    refine ⟨?_, ?_, sound_step hr op hs, s', h1, h2, h3⟩
    · have := Nat.lt_mul_div_succ (now - n.next) (show 0 < day by decide)
      dsimp only
      omega
    · have := Nat.mul_div_le (now - n.next) day
      dsimp only
      rw [Nat.mul_add]
      omega

/-! ## Negations -/

/-- One entry with an unreadable address makes the file unreadable. -/
theorem mapM_poison {α : Type} (f : Js → Option α) (l : List Js) (j : Js) (hj : j ∈ l) (h : f j = none) :
    l.mapM f = none := by
  induction l with
  | nil => cases hj
  | cons a l ih =>
    rw [List.mapM_cons]
    rcases List.mem_cons.1 hj with rfl | hj
    · rw [h]; rfl
    · cases f a with
      | none => rfl
      | some b => rw [ih hj]; rfl

theorem book_poison {T : Texts} {l : List Info} {x : Info} (hx : x ∈ l) (h : T.readAddr (T.showAddr x.addr) = none) :
    readList (readInfo T) (bookText T l) = none := by
  unfold readList bookText
  rw [read_write]
  dsimp only
  refine mapM_poison _ _ (infoJs T x) (List.mem_map.2 ⟨x, hx, rfl⟩) ?_
  unfold readInfo infoJs
  rw [fieldsOf_zip infoKeys_nodup rfl]
  simp only [readText, Option.bind_some, h]

/-- A name with a slash, what follows the slash being no protocol. -/
theorem dns_unreadable (L : Leaf) (a b : Bytes) (cs : List Comp) (ha : slash ∉ a) (hb : slash ∉ b)
    (hn : ∀ p ∈ [txt "tls", txt "ws", txt "wss", txt "dns4", txt "ip4", txt "ip6", txt "tcp", txt "p2p"], b ≠ p) :
    readAddr L (addrText L (.dns4 (a ++ slash :: b) :: cs)) = none := by
  have hcs : ∃ q, split (b ++ addrText L cs) = b :: q := by
    cases cs with
    | nil => exact ⟨[], by simp only [addrText, List.flatMap_nil, List.append_nil]; exact split_noslash hb⟩
    | cons c cs =>
      have : ∃ r, addrText L (c :: cs) = slash :: r := by
        simp only [addrText, List.flatMap_cons]
        cases c <;> exact ⟨_, rfl⟩
      obtain ⟨r, hr⟩ := this
      rw [hr, split_append hb]
      exact ⟨_, rfl⟩
  obtain ⟨q, hq⟩ := hcs
  have : split (addrText L (.dns4 (a ++ slash :: b) :: cs)) = [] :: txt "dns4" :: a :: b :: q := by
    have e : addrText L (.dns4 (a ++ slash :: b) :: cs) =
        slash :: (txt "dns4" ++ slash :: (a ++ slash :: (b ++ addrText L cs))) := by
      simp [addrText, Comp.text]
    rw [e]
    simp only [split, if_true]
    rw [split_append (by decide +kernel), split_append ha, hq]
  unfold readAddr
  rw [this]
  simp only
  rw [readParts.eq_def]
  dsimp only
  rw [if_neg (by decide +kernel), if_neg (by decide +kernel), if_neg (by decide +kernel), if_pos rfl, readParts.eq_def]
  dsimp only
  rw [if_neg (hn _ (by simp)), if_neg (hn _ (by simp)), if_neg (hn _ (by simp))]
  cases q with
  | nil => rfl
  | cons c q =>
    dsimp only
    rw [if_neg (hn _ (by simp)), if_neg (hn _ (by simp)), if_neg (hn _ (by simp)), if_neg (hn _ (by simp)),
      if_neg (hn _ (by simp))]
    rfl

theorem seen_get {d : Dir} {a b : Bytes} {env : Env} (h0 : env.dirs = true) (h1 : env.addrs.openOk = true)
    (h2 : env.addrs.lenOk = true) (h3 : env.addrs.writeOk = true) (h4 : env.addrs.syncOk = true)
    (h5 : env.addrs.renameOk = false) (h6 : env.addrs.copyOk = true) (k : Nat) (hk : k ≤ a.length) :
    ∃ d', (d :: (dumpDir d a b env).seen)[a.length + 4 + k]? = some d' ∧ d'.main .addrs = some (a.take k) ∧
      d'.main .bans = d.main .bans := by
  have key : ∀ rest, ∃ d', (d :: ((dumpFile d .addrs a env.addrs).seen ++ rest))[a.length + 4 + k]? = some d' ∧
      d'.main .addrs = some (a.take k) ∧ d'.main .bans = d.main .bans := by
    intro rest
    refine ⟨(((d.setTmp .addrs (some ((d.tmp .addrs).getD []))).setTmp .addrs (some [])).setTmp .addrs
      (some (a.take a.length))).setMain .addrs (some (a.take k)), ?_, by simp [Dir.setMain], by simp [Dir.setMain, Dir.setTmp]⟩
    unfold dumpFile
    simp only [h1, h2, h3, h4, Bool.not_true, Bool.or_self, Bool.false_eq_true, if_false, if_true, moveFile, h5, h6]
    rw [show a.length + 4 + k = (a.length + 3 + k) + 1 by omega, List.getElem?_cons_succ]
    have e : ∀ (x y : Dir) (l m : List Dir), ((x :: y :: l) ++ m) = x :: y :: (l ++ m) := by intros; rfl
    have e2 : (((d.setTmp .addrs (some ((d.tmp .addrs).getD []))).setTmp .addrs (some [])).setTmp .addrs
      (some (a.take a.length))).tmp .addrs = some a := by simp [Dir.setTmp]
    rw [e2]
    simp only [Option.getD_some]
    have hlen : (growing (((d.setTmp .addrs (some ((d.tmp .addrs).getD []))).setTmp .addrs (some [])).setTmp .addrs) a
        a.length).length = a.length + 1 := by simp [growing]
    have hg : (growing ((((d.setTmp .addrs (some ((d.tmp .addrs).getD []))).setTmp .addrs (some [])).setTmp .addrs
        (some (a.take a.length))).setMain .addrs) a a.length)[k]? = some ((((d.setTmp .addrs (some ((d.tmp .addrs).getD []))).setTmp .addrs (some [])).setTmp .addrs
      (some (a.take a.length))).setMain .addrs (some (a.take k))) := by
      simp [growing, List.getElem?_map, List.getElem?_range (show k < a.length + 1 by omega)]
    have hglen : (growing ((((d.setTmp .addrs (some ((d.tmp .addrs).getD []))).setTmp .addrs (some [])).setTmp .addrs
        (some (a.take a.length))).setMain .addrs) a a.length).length = a.length + 1 := by simp [growing]
    generalize growing (((d.setTmp .addrs (some ((d.tmp .addrs).getD []))).setTmp .addrs (some [])).setTmp .addrs) a
        a.length = G at hlen ⊢
    generalize growing ((((d.setTmp .addrs (some ((d.tmp .addrs).getD []))).setTmp .addrs (some [])).setTmp .addrs
        (some (a.take a.length))).setMain .addrs) a a.length = H at hg hglen ⊢
    have fin : ∀ (x y : Dir) (H' : List Dir), H'[k]? = H[k]? →
        (x :: y :: G ++ H' ++ rest)[a.length + 3 + k]? = (H' ++ rest)[k]? := by
      intro x y H' _
      rw [List.append_assoc, List.cons_append, List.cons_append,
        show a.length + 3 + k = (a.length + 1 + k) + 1 + 1 by omega, List.getElem?_cons_succ, List.getElem?_cons_succ,
        List.getElem?_append_right (by omega), hlen, show a.length + 1 + k - (a.length + 1) = k by omega]
    cases env.addrs.removeOk with
    | true =>
      simp only [if_true]
      rw [fin _ _ _ (List.getElem?_append_left (by omega)), List.append_assoc, List.getElem?_append_left (by omega), hg]
    | false =>
      simp only [Bool.false_eq_true, if_false]
      rw [fin _ _ _ rfl, List.getElem?_append_left (by omega), hg]
  unfold dumpDir
  simp only [h0, Bool.not_true, Bool.false_eq_true, if_false]
  split
  · have := key []
    rwa [List.append_nil] at this
  · exact key _

/-! ### A toy -/

/-- Texts of addresses for the examples: a digit and a number. -/
def toyLeaf : Leaf where
  showIp
    | .v4 n => 0x34 :: dec n
    | .v6 n => 0x36 :: dec n
  readIp
    | [] => none
    | c :: r => if c = 0x34 then some (.v4 (value 0 r)) else some (.v6 (value 0 r))
  showPeer := dec
  readPeer t := some (value 0 t)

theorem toyLeaf_ok : toyLeaf.Ok where
  ip := by
    intro ip
    cases ip <;> simp [toyLeaf, value_dec]
  ipSlash := by
    intro ip
    cases ip with
    | v4 n => exact fun h => (List.mem_cons.1 h).elim (by decide) (slash_dec n)
    | v6 n => exact fun h => (List.mem_cons.1 h).elim (by decide) (slash_dec n)
  peer := by intro p; simp [toyLeaf, value_dec]
  peerSlash := slash_dec

def toyGood : List Comp := [.ip4 0x01020304, .tcp 8000, .p2p 7]

def toyBad : List Comp := [.dns4 (txt "a/b"), .ip4 0x05060708, .tcp 8000, .p2p 8]

def toy : Texts where
  leaf := toyLeaf
  comps n := if n = 0 then toyGood else toyBad
  index cs := if cs = toyGood then 0 else 1

def goodAddr : MAddr := toy.addr toyGood

def badAddr : MAddr := toy.addr toyBad

theorem good_readable : Readable toy goodAddr :=
  C124_address toyLeaf_ok (by simp [toyGood, Plain]) (by decide +kernel)

def goodInfo : Info := { addr := goodAddr, lastConn := 1000 }

theorem good_book : BookOk toy [goodInfo] where
  once := by simp
  peer := by simp [goodInfo, goodAddr, Texts.addr, toyGood, peerOf]
  fits := by
    intro x hx
    rw [List.mem_singleton.1 hx]
    constructor <;> simp [goodInfo]
  readable := by
    intro x hx
    rw [List.mem_singleton.1 hx]
    exact good_readable

def oneBan : Banned := ⟨.v4 0x01020300 24, 5000, txt "say \"no\"", 9⟩

theorem one_bans : BansOk [oneBan] where
  once := by simp
  net := by simp [oneBan, NetOk]
  till := by simp [oneBan]
  created := by simp [oneBan]

/-- A dump that succeeds, one whose `write_all` fails and one that is killed. -/
def toyRuns : List Dump :=
  [⟨[goodInfo], [oneBan], {}, none⟩, ⟨[], [oneBan], { addrs := { writeOk := false, wrote := 1 } }, none⟩,
    ⟨[], [], {}, some 9⟩]

example : ∃ c ∈ toyRuns.foldl knows [(none, none)], ∃ s, load toy (history toy Dir.empty toyRuns) 2000 = .ok s ∧
    Says s (c.1.getD []) (c.2.getD []) 2000 :=
  C124_restart_partial toyLeaf_ok toyRuns (by simp [toyRuns, Dump.Safe, Io.Safe])
    (by
      intro e he
      have e1 : BookOk toy [] := ⟨.nil, by simp, by simp, by simp⟩
      have e2 : BansOk [] := ⟨.nil, by simp, by simp, by simp⟩
      simp only [toyRuns, List.mem_cons, List.not_mem_nil, or_false] at he
      rcases he with rfl | rfl | rfl
      · exact ⟨good_book, one_bans⟩
      · exact ⟨e1, one_bans⟩
      · exact ⟨e1, e2⟩) 2000

example : ∃ s, load toy ((⟨[goodInfo], [oneBan], {}, none⟩ : Dump).after toy Dir.empty) 2000 = .ok s ∧
    s.book.book ⟨.v4 0x01020304, 8000⟩ = some goodInfo.strip ∧ s.bans.isBanned (.v4 0x01020355) 4999 = true ∧
    s.bans.isBanned (.v4 0x01020355) 5000 = false := by
  obtain ⟨s, h1, h2⟩ := C124_last toyLeaf_ok Dir.empty ⟨[goodInfo], [oneBan], {}, none⟩ rfl ⟨.inl rfl, .inl rfl⟩ good_book
    one_bans 2000
  refine ⟨s, h1, ?_, ?_, ?_⟩
  · rw [h2.book]
    decide +kernel
  · rw [h2.bans _ _ (by omega)]
    exact ⟨oneBan, by simp, by decide +kernel, by decide +kernel⟩
  · rw [← Bool.not_eq_true, h2.bans _ _ (by omega)]
    rintro ⟨x, hx, h3, _⟩
    rw [List.mem_singleton.1 hx] at h3
    simp [oneBan] at h3

/-- A store with an address and a ban: the hypotheses of `C124_entries` and `C124_round`. -/
example : ∃ s s', Store.empty.run [.addOutbound goodAddr 1000, .ban badAddr 500 1000] = .ok s ∧
    load toy ((dumpOf s).after toy Dir.empty) 1200 = .ok s' ∧ s'.book.book = s.book.book ∧
    s'.book.book ⟨.v4 0x01020304, 8000⟩ = some goodInfo.strip ∧ s'.bans.isBanned (.v4 0x05060708) 1499 = true ∧
    s'.bans.isBanned (.v4 0x05060708) 1500 = false := by
  obtain ⟨s, hs⟩ : ∃ s, Store.empty.run [.addOutbound goodAddr 1000, .ban badAddr 500 1000] = .ok s := ⟨_, rfl⟩
  have hsound : Sound s := by
    have : ∀ ops (s s' : Store), Sound s → s.run ops = .ok s' → Sound s' := by
      intro ops
      induction ops with
      | nil => intro s s' h h'; cases h'; exact h
      | cons op ops ih =>
        intro s s' h h'
        simp only [Store.run] at h'
        cases h1 : s.step op with
        | ok s1 => rw [h1] at h'; exact ih s1 s' (sound_step h op h1) h'
        | err => rw [h1] at h'; cases h'
        | panic => rw [h1] at h'; cases h'
    exact this _ _ _ (C124_sound toy).1 hs
  have hv : s.book.values = [goodInfo] ∧ s.bans.inner = [(.v4 0x05060708 32, 1500)] := by
    cases hs
    decide +kernel
  obtain ⟨s', g1, _, g2, g3, _⟩ := C124_round toyLeaf_ok hsound Dir.empty (dumpOf s) rfl ⟨.inl rfl, .inl rfl⟩
    ⟨List.Perm.refl _, by rw [dumpOf, hv.2]; exact List.Perm.refl _⟩
    (by
      intro x hx
      rw [show (dumpOf s).infos = [goodInfo] from hv.1] at hx
      exact ⟨good_book.fits x hx, good_book.readable x hx⟩)
    (by
      intro x hx
      rw [show (dumpOf s).banned = [⟨.v4 0x05060708 32, 1500, [], 0⟩] by rw [dumpOf, hv.2]; rfl] at hx
      rw [List.mem_singleton.1 hx]; decide) 1200
  refine ⟨s, s', hs, g1, g2, ?_, ?_, ?_⟩
  · rw [g2]
    cases hs
    decide +kernel
  · rw [g3 _ _ (by omega)]
    unfold BanList.isBanned
    rw [hv.2]
    decide +kernel
  · rw [g3 _ _ (by omega)]
    unfold BanList.isBanned
    rw [hv.2]
    decide +kernel

example : ∃ n', (⟨Dir.empty, Store.empty, 1000⟩ : Node).event toy (day * 3) (.addOutbound goodAddr 2000) = .ok n' ∧
    n'.next ≤ day * 3 + day := by
  refine ⟨_, rfl, ?_⟩
  exact (C124_tick toyLeaf_ok (n := ⟨Dir.empty, Store.empty, 1000⟩) (C124_sound toy).1
    (by simp [Store.empty, Manager.values, Manager.empty]) (day * 3) (.addOutbound goodAddr 2000) (by decide) rfl 0).2.1

/-- C124, the negation for the copy: if the file cannot be renamed and the process is killed while it copies, the
address book is gone, although a complete one was in place and another lies beside it. -/
theorem C124_torn_false : ∃ (T : Texts) (e : Dump), T.leaf.Ok ∧ BookOk T e.infos ∧ BansOk e.banned ∧ e.infos ≠ [] ∧
    e.fine = true ∧ ∀ k now, k < (bookText T e.infos).length →
      ∃ s, load T (history T Dir.empty [e, ⟨e.infos, e.banned, { addrs := { renameOk := false } },
          some ((bookText T e.infos).length + 4 + k)⟩]) now = .ok s ∧
        s.book = Manager.empty := by
  refine ⟨toy, ⟨[goodInfo], [oneBan], {}, none⟩, toyLeaf_ok, good_book, one_bans, by simp, rfl, ?_⟩
  intro k now hk
  obtain ⟨d', h1, h2, _⟩ := seen_get (d := (⟨[goodInfo], [oneBan], {}, none⟩ : Dump).after toy Dir.empty)
    (a := bookText toy [goodInfo]) (b := bansText toy [oneBan]) (env := { addrs := { renameOk := false } }) rfl rfl rfl
    rfl rfl rfl rfl k (Nat.le_of_lt hk)
  have : history toy Dir.empty [⟨[goodInfo], [oneBan], {}, none⟩, ⟨[goodInfo], [oneBan],
      { addrs := { renameOk := false } }, some ((bookText toy [goodInfo]).length + 4 + k)⟩] = d' := by
    simp only [history, List.foldl_cons, List.foldl_nil]
    rw [Dump.after]
    dsimp only
    rw [h1]; rfl
  rw [this]
  have hb : bookOf toy d' = .ok Manager.empty := by
    unfold bookOf
    rw [h2]
    simp only [Option.bind_some, readList]
    have := read_cut ([goodInfo].map (infoJs toy)) k hk
    unfold bookText
    rw [this]
  unfold load
  rw [hb]
  exact ⟨_, rfl, rfl⟩

/-- C124, the negation for names: the book of this store has an address that a peer may announce (`badAddr`), and
after a successful dump a node that starts knows no address at all; its own first dump overwrites the file. -/
theorem C124_poison_false : ∃ (T : Texts) (s : Store), T.leaf.Ok ∧
    Store.empty.run [.addOutbound goodAddr 1000, .addAddr badAddr ⟨id, id⟩ 1000] = .ok s ∧
    (∃ cs, goodAddr = T.addr cs) ∧ (∃ cs, badAddr = T.addr cs) ∧ s.book.book ⟨.v4 0x01020304, 8000⟩ = some goodInfo.strip ∧
    ∀ d e, e.fine = true → e.Safe → Of s e → ∀ now, ∃ s', load T (e.after T d) now = .ok s' ∧ s'.book = Manager.empty ∧
      ∀ e', e'.fine = true → e'.Safe → Of s' e' → (e'.after T (e.after T d)).main .addrs = some (bookText T []) := by
  obtain ⟨s, hs⟩ : ∃ s, Store.empty.run [.addOutbound goodAddr 1000, .addAddr badAddr ⟨id, id⟩ 1000] = .ok s :=
    ⟨_, rfl⟩
  have hv : ({ addr := badAddr, lastConn := 0, pos := 1 } : Info) ∈ s.book.values ∧
      s.book.book ⟨.v4 0x01020304, 8000⟩ = some goodInfo.strip := by
    cases hs
    decide +kernel
  refine ⟨toy, s, toyLeaf_ok, hs, ⟨_, rfl⟩, ⟨_, rfl⟩, hv.2, ?_⟩
  intro d e hf hsafe ho now
  have hp := (after_pair toy d e hsafe).1 hf
  have hA : (e.after toy d).main .addrs = some (bookText toy e.infos) := congrArg Prod.fst hp
  have hbad : toy.readAddr (toy.showAddr badAddr) = none := by
    have := dns_unreadable toyLeaf (txt "a") (txt "b") [.ip4 0x05060708, .tcp 8000, .p2p 8] (by decide +kernel)
      (by decide +kernel) (by decide +kernel)
    have e1 : toy.showAddr badAddr = addrText toyLeaf (.dns4 (txt "a" ++ slash :: txt "b") :: [.ip4 0x05060708, .tcp 8000, .p2p 8]) := by
      decide +kernel
    rw [e1]
    unfold Texts.readAddr
    rw [show toy.leaf = toyLeaf from rfl, this]; rfl
  have hmem : ({ addr := badAddr, lastConn := 0, pos := 1 } : Info) ∈ e.infos := by
    rw [ho.infos.mem_iff]; exact hv.1
  have hb : bookOf toy (e.after toy d) = .ok Manager.empty := by
    unfold bookOf
    rw [hA]
    simp only [Option.bind_some, book_poison hmem hbad]
  refine ⟨⟨Manager.empty, bansOf toy (e.after toy d) now, []⟩, by unfold load; rw [hb], rfl, ?_⟩
  intro e' hf' hs' ho'
  have hp' := (after_pair toy (e.after toy d) e' hs').1 hf'
  have hA' : (e'.after toy (e.after toy d)).main .addrs = some (bookText toy e'.infos) := congrArg Prod.fst hp'
  have : e'.infos = [] := List.Perm.eq_nil ho'.infos
  rw [hA', this]

/-- C124, the negation for what is learnt between dumps: a ban of less than a day ago does not survive a stop and
a start, however orderly. -/
theorem C124_unsaved_false (T : Texts) (hL : T.leaf.Ok) (a : MAddr) (k : Sock) (ha : a.sock = some k)
    (t0 t timeout t1 : Nat) (h2 : t < t0 + day) (h3 : 0 < timeout) (h4 : t + timeout < 2 ^ 64) :
    ∃ n n' n'', Node.start T Dir.empty t0 = .ok n ∧ n.event T t (.ban a timeout t) = .ok n' ∧
      n'.store.isBanned a t = true ∧ Node.start T n'.dir t1 = .ok n'' ∧ ∀ t', t1 ≤ t' → n''.store.isBanned a t' = false := by
  have e1 : Node.start T Dir.empty t0 = .ok ⟨(dumpOf Store.empty).after T Dir.empty, Store.empty, t0 + day⟩ := rfl
  have e2 : Store.empty.step (.ban a timeout t) =
      .ok { Store.empty with bans := BanList.new.ban (ipNet k.ip) (t + timeout) t } := by
    have hr : Manager.empty.remove a = .ok (Manager.empty, none) := by
      simp [Manager.remove, ha, Manager.empty, get_nil]
    simp only [Store.step, Store.banAddr, ha, Store.empty, BanList.banNetwork, if_pos h4, hr]
  obtain ⟨s, g1, g2⟩ := C124_last hL Dir.empty (dumpOf Store.empty) rfl ⟨.inl rfl, .inl rfl⟩
    ⟨.nil, by simp [dumpOf, Store.empty, Manager.values, Manager.empty], by simp [dumpOf, Store.empty, Manager.values, Manager.empty],
      by simp [dumpOf, Store.empty, Manager.values, Manager.empty]⟩
    ⟨.nil, by simp [dumpOf, Store.empty, BanList.new], by simp [dumpOf, Store.empty, BanList.new],
      by simp [dumpOf, Store.empty, BanList.new]⟩ t1
  refine ⟨_, ⟨(dumpOf Store.empty).after T Dir.empty, { Store.empty with bans := BanList.new.ban (ipNet k.ip) (t + timeout) t }, t0 + day⟩,
    ⟨(dumpOf s).after T ((dumpOf Store.empty).after T Dir.empty), s, t1 + day⟩, e1, ?_, ?_, ?_, ?_⟩
  · unfold Node.event
    dsimp only
    rw [if_neg (by omega)]
    dsimp only
    rw [e2]
  · have := (C46_host k.ip k.ip (t + timeout) t t (Nat.le_refl _) (by omega))
    simp only [Store.isBanned, ha, Option.map_some, BanList.isAddrBanned]
    exact this.2 rfl
  · unfold Node.start
    dsimp only
    rw [g1]
  · intro t' ht'
    simp only [Store.isBanned, ha, Option.map_some, BanList.isAddrBanned]
    rw [← Bool.not_eq_true, g2.bans _ _ ht']
    simp [dumpOf, Store.empty, BanList.new]

end Axon.PeerFiles

import Verif.Network.PeerStoreProps
import Verif.Network.AddrManagerProps
import Verif.Network.BanListProps
import Verif.Util.JsonText

/-!
# The peer store on disk

Model of core/network/src/peer_manager/peer_store/peer_store_db.rs: the two files with the address book and the
ban list, how they are written and moved into place, and what a node makes of them when it starts
(peer_manager/mod.rs:46).  The process may be killed at any moment and every call of the operating system may
fail.  Not modelled: loss of power (what is on disk is what was written, in the order of the calls).
-/

namespace Axon.PeerFiles

open Axon Axon.Assoc Axon.Peers Axon.Bans Axon.JsonText

def txt (s : String) : Bytes := s.toUTF8.toList

/-! ## Texts of addresses -/

/-- Texts of IP addresses (`std::net`) and of peer ids (base 58). -/
structure Leaf where
  showIp : Ip → Bytes
  readIp : Bytes → Option Ip
  showPeer : Nat → Bytes
  readPeer : Bytes → Option Nat

def slash : UInt8 := 0x2f

/-- What was written is read, and no leaf holds a slash. -/
structure Leaf.Ok (L : Leaf) : Prop where
  ip : ∀ ip, L.readIp (L.showIp ip) = some ip
  ipSlash : ∀ ip, slash ∉ L.showIp ip
  peer : ∀ p, L.readPeer (L.showPeer p) = some p
  peerSlash : ∀ p, slash ∉ L.showPeer p

/-- Components of a multiaddress (crate `tentacle-multiaddr`); of the others, `tls`, `ws` and `wss` stand for
those without an argument.  The name of `dns4` is any text. -/
inductive Comp where
  | dns4 (name : Bytes)
  | ip4 (n : Nat)
  | ip6 (n : Nat)
  | tcp (port : Nat)
  | p2p (id : Nat)
  | tls
  | ws
  | wss
deriving DecidableEq, Repr

/-- `Display for Protocol`. -/
def Comp.text (L : Leaf) : Comp → Bytes
  | .dns4 s => slash :: (txt "dns4" ++ slash :: s)
  | .ip4 n => slash :: (txt "ip4" ++ slash :: L.showIp (.v4 n))
  | .ip6 n => slash :: (txt "ip6" ++ slash :: L.showIp (.v6 n))
  | .tcp p => slash :: (txt "tcp" ++ slash :: dec p)
  | .p2p i => slash :: (txt "p2p" ++ slash :: L.showPeer i)
  | .tls => slash :: txt "tls"
  | .ws => slash :: txt "ws"
  | .wss => slash :: txt "wss"

/-- `Display for Multiaddr`, which its serde code writes. -/
def addrText (L : Leaf) (cs : List Comp) : Bytes := cs.flatMap (Comp.text L)

/-- `str::split('/')`. -/
def split : Bytes → List Bytes
  | [] => [[]]
  | c :: r => if c = slash then [] :: split r else
    match split r with
    | [] => [[c]]
    | p :: ps => (c :: p) :: ps

/-- `u16::from_str`: a sign `+` and leading zeros are allowed. -/
def readPort (t : Bytes) : Option Nat :=
  let d := if t.head? = some 0x2b then t.drop 1 else t
  if d ≠ [] ∧ d.all isDigit = true ∧ value 0 d < 2 ^ 16 then some (value 0 d) else none

/-- `Protocol::from_str_parts` repeated. -/
def readParts (L : Leaf) : List Bytes → Option (List Comp)
  | [] => some []
  | p :: ps =>
    if p = txt "tls" then (readParts L ps).map (Comp.tls :: ·)
    else if p = txt "ws" then (readParts L ps).map (Comp.ws :: ·)
    else if p = txt "wss" then (readParts L ps).map (Comp.wss :: ·)
    else
      match ps with
      | [] => none
      | a :: ps =>
        if p = txt "dns4" then (readParts L ps).map (Comp.dns4 a :: ·)
        else if p = txt "ip4" then
          match L.readIp a with
          | some (.v4 n) => (readParts L ps).map (Comp.ip4 n :: ·)
          | _ => none
        else if p = txt "ip6" then
          match L.readIp a with
          | some (.v6 n) => (readParts L ps).map (Comp.ip6 n :: ·)
          | _ => none
        else if p = txt "tcp" then
          match readPort a with
          | some n => (readParts L ps).map (Comp.tcp n :: ·)
          | none => none
        else if p = txt "p2p" then
          match L.readPeer a with
          | some n => (readParts L ps).map (Comp.p2p n :: ·)
          | none => none
        else none

/-- `FromStr for Multiaddr`, which its serde code reads: the text starts with a slash. -/
def readAddr (L : Leaf) (t : Bytes) : Option (List Comp) :=
  match split t with
  | [] :: ps => readParts L ps
  | _ => none

/-- `multiaddr_to_socketaddr` of tentacle: the first IP address that TCP follows at once. -/
def sockOf : List Comp → Option Sock
  | .ip4 n :: .tcp p :: _ => some ⟨.v4 n, p⟩
  | .ip6 n :: .tcp p :: _ => some ⟨.v6 n, p⟩
  | .ip4 _ :: _ :: cs => sockOf cs
  | .ip6 _ :: _ :: cs => sockOf cs
  | _ :: cs => sockOf cs
  | [] => none

/-- `extract_peer_id` of tentacle. -/
def peerOf : List Comp → Option Nat
  | .p2p i :: _ => some i
  | _ :: cs => peerOf cs
  | [] => none

/-- How the addresses of the peer store are written.  `Peers.MAddr` keeps of an address its socket address, its
peer id and a number for the rest; `comps` and `index` say which address a number stands for. -/
structure Texts where
  leaf : Leaf
  comps : Nat → List Comp
  index : List Comp → Nat

/-- The address made of these components. -/
def Texts.addr (T : Texts) (cs : List Comp) : MAddr := ⟨sockOf cs, peerOf cs, T.index cs⟩

def Texts.showAddr (T : Texts) (a : MAddr) : Bytes := addrText T.leaf (T.comps a.rest)

def Texts.readAddr (T : Texts) (t : Bytes) : Option MAddr := (PeerFiles.readAddr T.leaf t).map T.addr

/-- `Display for IpNetwork`. -/
def Texts.showNet (T : Texts) : Net → Bytes
  | .v4 n p => T.leaf.showIp (.v4 n) ++ slash :: dec p
  | .v6 n p => T.leaf.showIp (.v6 n) ++ slash :: dec p

/-- `u8::from_str` of the prefix. -/
def readPrefix (max : Nat) (t : Bytes) : Option Nat :=
  let d := if t.head? = some 0x2b then t.drop 1 else t
  if d ≠ [] ∧ d.all isDigit = true ∧ value 0 d ≤ max then some (value 0 d) else none

/-- `FromStr for IpNetwork`; a netmask in place of the prefix is left out. -/
def Texts.readNet (T : Texts) (t : Bytes) : Option Net :=
  match split t with
  | [ip] =>
    match T.leaf.readIp ip with
    | some (.v4 n) => some (.v4 n 32)
    | some (.v6 n) => some (.v6 n 128)
    | none => none
  | [ip, p] =>
    match T.leaf.readIp ip with
    | some (.v4 n) => (readPrefix 32 p).map (Net.v4 n)
    | some (.v6 n) => (readPrefix 128 p).map (Net.v6 n)
    | none => none
  | _ => none

/-! ## Records -/

/-- The field of this name; a field that is missing or given twice is an error, others are ignored. -/
def field (l : List (Bytes × Js)) (k : Bytes) : Option Js :=
  match l.filter (fun e => e.1 = k) with
  | [e] => some e.2
  | _ => none

/-- Derived `Deserialize` of a struct: an object, or an array of the fields in order. -/
def fieldsOf (names : List Bytes) : Js → Option (List Js)
  | .obj l => names.mapM (field l)
  | .arr l => if l.length = names.length then some l else none
  | _ => none

def readUint (bits : Nat) : Js → Option Nat
  | .num n => if 0 ≤ n ∧ n < 2 ^ bits then some n.toNat else none
  | _ => none

def readI32 : Js → Option Int
  | .num n => if -2 ^ 31 ≤ n ∧ n < 2 ^ 31 then some n else none
  | _ => none

def readText : Js → Option Bytes
  | .str s => some s
  | _ => none

/-- types.rs:36-50, the fields of `AddrInfo`. -/
def infoKeys : List Bytes :=
  [txt "addr", txt "score", txt "last_connected_at_ms", txt "last_tried_at_ms", txt "attempts_count",
    txt "random_id_pos"]

/-- Derived `Serialize for AddrInfo`. -/
def infoJs (T : Texts) (x : Info) : Js :=
  .obj (infoKeys.zip [.str (T.showAddr x.addr), .num x.score, .num x.lastConn, .num x.lastTried, .num x.attempts,
    .num x.pos])

/-- Derived `Deserialize for AddrInfo`. -/
def readInfo (T : Texts) (j : Js) : Option Info :=
  match fieldsOf infoKeys j with
  | some [a, s, c, t, n, p] =>
    match (readText a).bind T.readAddr, readI32 s, readUint 64 c, readUint 64 t, readUint 32 n, readUint 64 p with
    | some a, some s, some c, some t, some n, some p => some ⟨a, s, c, t, n, p⟩
    | _, _, _, _, _, _ => none
  | _ => none

/-- types.rs:109-118: `BannedAddr`. -/
structure Banned where
  net : Net
  till : Nat
  reason : Bytes
  created : Nat
deriving DecidableEq, Repr

/-- types.rs:109-118, the fields of `BannedAddr`. -/
def banKeys : List Bytes := [txt "address", txt "ban_until", txt "ban_reason", txt "created_at"]

/-- Derived `Serialize for BannedAddr`. -/
def banJs (T : Texts) (x : Banned) : Js :=
  .obj (banKeys.zip [.str (T.showNet x.net), .num x.till, .str x.reason, .num x.created])

/-- Derived `Deserialize for BannedAddr`. -/
def readBan (T : Texts) (j : Js) : Option Banned :=
  match fieldsOf banKeys j with
  | some [a, u, r, c] =>
    match (readText a).bind T.readNet, readUint 64 u, readText r, readUint 64 c with
    | some a, some u, some r, some c => some ⟨a, u, r, c⟩
    | _, _, _, _ => none
  | _ => none

/-- `Vec<_>`: one element that cannot be read spoils all. -/
def readList {α : Type} (f : Js → Option α) (t : Bytes) : Option (List α) :=
  match read t with
  | some (.arr l) => l.mapM f
  | _ => none

/-- peer_store_db.rs:34-39: the text of `Manager::dump`; the order of the hash map is arbitrary. -/
def bookText (T : Texts) (l : List Info) : Bytes := write (.arr (l.map (infoJs T)))

/-- peer_store_db.rs:60-65: the text of `BanList::dump`. -/
def bansText (T : Texts) (l : List Banned) : Bytes := write (.arr (l.map (banJs T)))

/-! ## Files -/

/-- The two files, peer_store_db.rs:17-18. -/
inductive File where
  | addrs
  | bans
deriving DecidableEq, Repr

/-- The directory of the store: the files in place and those in `tmp`. -/
structure Dir where
  main : File → Option Bytes
  tmp : File → Option Bytes

def Dir.empty : Dir := ⟨fun _ => none, fun _ => none⟩

def Dir.setMain (d : Dir) (f : File) (t : Option Bytes) : Dir :=
  { d with main := fun g => if g = f then t else d.main g }

def Dir.setTmp (d : Dir) (f : File) (t : Option Bytes) : Dir :=
  { d with tmp := fun g => if g = f then t else d.tmp g }

/-- Which calls of the operating system succeed while one file is written; `wrote` and `copied` are the numbers
of bytes that a failing `write_all` or `copy` got through. -/
structure Io where
  openOk : Bool := true
  lenOk : Bool := true
  writeOk : Bool := true
  wrote : Nat := 0
  syncOk : Bool := true
  renameOk : Bool := true
  copyOk : Bool := true
  copied : Nat := 0
  removeOk : Bool := true

/-- A run of some code: the directories seen on the way (the process may be killed at each), the last of them,
and whether the code returned `Ok`. -/
structure Steps where
  seen : List Dir
  last : Dir
  ok : Bool

/-- The directories while the first `n` bytes arrive one after another; where the kernel takes more at once, some
of them are skipped. -/
def growing (set : Option Bytes → Dir) (t : Bytes) (n : Nat) : List Dir :=
  (List.range (n + 1)).map fun k => set (some (t.take k))

/-- peer_store_db.rs:143-151: `move_file`, rename or else copy and remove.  `std::fs::copy` truncates the
destination. -/
def moveFile (d : Dir) (f : File) (io : Io) : Steps :=
  if io.renameOk then
    let d' := (d.setMain f (d.tmp f)).setTmp f none
    ⟨[d'], d', true⟩
  else
    let t := (d.tmp f).getD []
    let n := if io.copyOk then t.length else min io.copied t.length
    let during := growing (d.setMain f) t n
    let d1 := d.setMain f (some (t.take n))
    if io.copyOk then
      if io.removeOk then
        let d2 := d1.setTmp f none
        ⟨during ++ [d2], d2, true⟩
      else ⟨during, d1, false⟩
    else ⟨during, d1, false⟩

/-- peer_store_db.rs:120-130, 131-138 with 34-41, 60-67: one of the two files is opened in `tmp` (created, not
truncated), emptied, written, synchronised and moved. -/
def dumpFile (d : Dir) (f : File) (t : Bytes) (io : Io) : Steps :=
  if !io.openOk then ⟨[], d, false⟩
  else
    let d1 := d.setTmp f (some ((d.tmp f).getD []))
    if !io.lenOk then ⟨[d1], d1, false⟩
    else
      let d2 := d1.setTmp f (some [])
      let n := if io.writeOk then t.length else min io.wrote t.length
      let during := growing (d2.setTmp f) t n
      let d3 := d2.setTmp f (some (t.take n))
      if !io.writeOk || !io.syncOk then ⟨d1 :: d2 :: during, d3, false⟩
      else
        let m := moveFile d3 f io
        ⟨d1 :: d2 :: during ++ m.seen, m.last, m.ok⟩

/-- The calls of one `dump_to_dir`. -/
structure Env where
  dirs : Bool := true
  addrs : Io := {}
  bans : Io := {}

/-- peer_store_db.rs:112-140: `dump_to_dir`, given the texts of the two files. -/
def dumpDir (d : Dir) (a b : Bytes) (e : Env) : Steps :=
  if !e.dirs then ⟨[], d, false⟩
  else
    let s1 := dumpFile d .addrs a e.addrs
    if !s1.ok then s1
    else
      let s2 := dumpFile s1.last .bans b e.bans
      ⟨s1.seen ++ s2.seen, s2.last, s2.ok⟩

/-- peer_store_db.rs:21-29 with 74-90: the address book of a directory. -/
def bookOf (T : Texts) (d : Dir) : Outcome Manager :=
  match (d.main .addrs).bind (readList (readInfo T)) with
  | some l => Manager.load l
  | none => .ok Manager.empty

/-- peer_store_db.rs:46-55 with 92-107: the ban list of a directory. -/
def bansOf (T : Texts) (d : Dir) (now : Nat) : BanList :=
  match (d.main .bans).bind (readList (readBan T)) with
  | some l => BanList.new.run (l.map fun x => (now, .ban x.net x.till))
  | none => BanList.new

/-- peer_store_db.rs:70-109: `load_from_dir_or_default`. -/
def load (T : Texts) (d : Dir) (now : Nat) : Outcome Store :=
  match bookOf T d with
  | .ok m => .ok ⟨m, bansOf T d now, []⟩
  | .err => .err
  | .panic => .panic

/-! ## Runs of a node -/

/-- One `dump_to_dir`: the store's content in the order of its hash maps, the calls, and the step at which the
process is killed, if it is. -/
structure Dump where
  infos : List Info
  banned : List Banned
  env : Env := {}
  kill : Option Nat := none

/-- The directory after it. -/
def Dump.after (T : Texts) (d : Dir) (e : Dump) : Dir :=
  let s := dumpDir d (bookText T e.infos) (bansText T e.banned) e.env
  match e.kill with
  | none => s.last
  | some k => ((d :: s.seen)[k]?).getD s.last

/-- It returned `Ok`. -/
def Dump.done (T : Texts) (d : Dir) (e : Dump) : Bool :=
  e.kill.isNone && (dumpDir d (bookText T e.infos) (bansText T e.banned) e.env).ok

/-- service.rs:525-536: dumps one after another, over any number of lives of the process. -/
def history (T : Texts) (d : Dir) (h : List Dump) : Dir := h.foldl (Dump.after T) d

/-- 24 hours. -/
def day : Nat := 24 * 3600 * 1000

/-- A running node: its files, its store and the time of its next dump. -/
structure Node where
  dir : Dir
  store : Store
  next : Nat

/-- ban_list.rs:73-77 and addr_manager.rs:94-96: what is dumped of a store.  The order of the hash maps, the
reasons and the times of creation are here some fixed ones. -/
def dumpOf (s : Store) : Dump := { infos := s.book.values, banned := s.bans.inner.map fun e => ⟨e.1, e.2, [], 0⟩ }

/-- service.rs:503-536 and peer_manager/mod.rs:46: the store is loaded, and the first tick of the dump interval
comes at once. -/
def Node.start (T : Texts) (d : Dir) (now : Nat) : Outcome Node :=
  match load T d now with
  | .ok s => .ok ⟨(dumpOf s).after T d, s, now + day⟩
  | .err => .err
  | .panic => .panic

/-- service.rs:523-536: something happens to the store at this time; the ticks that are due come before (missed
ticks are skipped).  There is no dump when the node stops. -/
def Node.event (T : Texts) (n : Node) (now : Nat) (op : SOp) : Outcome Node :=
  let n := if n.next ≤ now then
      { n with dir := (dumpOf n.store).after T n.dir, next := n.next + day * ((now - n.next) / day + 1) }
    else n
  match n.store.step op with
  | .ok s => .ok { n with store := s }
  | .err => .err
  | .panic => .panic

end Axon.PeerFiles

import Verif.Codec.Address
import Verif.Logger.Roller

/-!
# Key pairs: generated, recovered, loaded

`generate-keypair` and `recover-keypair` (`core/cli/src/args/generate_keypair.rs`, `core/cli/src/args/recover_keypair.rs`),
the keys a node loads (`common/config-parser/src/types/config.rs:132-179`) and what it makes of them
(`core/run/src/lib.rs:229, 243-251, 316-328, 377-396`, `core/network/src/config.rs:166-171`).

The curves are not part of /repo and appear as functions (`Scheme`).  Paths are texts: links and different spellings of
one path are left out.  Secrets come from a sequence.
-/

namespace Axon.Keypair
open Axon.Addr
open Axon.Roller (decimal)

abbrev Text := List Char

/-- The libraries: the compressed public key of a secp256k1 secret (`SecioKeyPair::secp256k1_raw_key`,
`Secp256k1PrivateKey::try_from`), the same key in full (`to_uncompressed_bytes`), the public key of a BLS secret
(`BlsPrivateKey::try_from`), Keccak, the peer id of a public key (`PeerId::from_public_key`) and `to_base58`. -/
structure Scheme where
  netPub : Bytes → Option Bytes
  full : Bytes → Option Bytes
  blsPub : Bytes → Option Bytes
  digest : Bytes → H256
  peerId : Bytes → Bytes
  base58 : Bytes → Text

variable (S : Scheme)

/-! ## Files -/

/-- What the files hold. -/
abbrev Files := Text → Option Bytes

/-- What becomes of a write: it is done, the file cannot be created, or it is created and the first `n` bytes get
written. -/
inductive Write where
  | done
  | refused
  | cut (n : Nat)

/-- A file gets a content. -/
def put (fs : Files) (p : Text) (b : Bytes) : Files := fun q => if q = p then some b else fs q

/-- The closure `write`, `generate_keypair.rs:133-138`: the file is created or emptied, then written. -/
def write (io : Text → Write) (fs : Files) (p : Text) (b : Bytes) : Files × Bool :=
  match io p with
  | .done => (put fs p b, true)
  | .refused => (fs, false)
  | .cut n => (put fs p (b.take n), false)

/-- `PathBuf::push` and `Path::join` of the standard library: an absolute path replaces the directory. -/
def push (dir name : Text) : Text :=
  if name.head? = some '/' then name
  else if dir = [] ∨ dir.getLast? = some '/' then dir ++ name
  else dir ++ '/' :: name

/-- `generate_keypair.rs:141` -/
def blsName (i : Nat) : Text := "bls_".toList ++ (decimal i ++ ".key".toList)

/-- `generate_keypair.rs:143` -/
def netName (i : Nat) : Text := "net_".toList ++ (decimal i ++ ".key".toList)

/-- `write_private_keys`, `generate_keypair.rs:132-148` -/
def writeKeys (io : Text → Write) (dir : Text) (net bls : Bytes) (i : Nat) (fs : Files) : Files × Bool :=
  let a := write io fs (push dir (blsName i)) bls
  if a.2 then write io a.1 (push dir (netName i)) net else a

/-! ## Key pairs -/

/-- `Keypair`, `generate_keypair.rs:60-69` -/
structure Keypair where
  index : Nat
  netPriv : Bytes
  pubKey : Bytes
  address : H160
  peerId : Text
  blsPriv : Bytes
  blsPub : Bytes
deriving DecidableEq

/-- `from_private_keys`, `generate_keypair.rs:78-102` -/
def fromPrivateKeys (net bls : Bytes) (i : Nat) : Option Keypair :=
  (S.netPub net).bind fun p =>
    (S.blsPub bls).bind fun q =>
      (fromPubkeyBytes S.digest S.full p).map fun a => ⟨i, net, p, a, S.base58 (S.peerId p), bls, q⟩

/-- The loop of `execute`, `generate_keypair.rs:40-49`; `Keypair::generate`, lines 72-76, takes the next secrets.  An
error ends it. -/
def generateFrom (io : Text → Write) (dir : Text) (rnd : Nat → Bytes × Bytes) : Nat → Nat → Files → Files × Option (List Keypair)
  | 0, _, fs => (fs, some [])
  | n + 1, i, fs =>
    match fromPrivateKeys S (rnd i).1 (rnd i).2 i with
    | none => (fs, none)
    | some k =>
      let w := writeKeys io dir k.netPriv k.blsPriv i fs
      if w.2 then
        let r := generateFrom io dir rnd n (i + 1) w.1
        (r.1, r.2.map (k :: ·))
      else (w.1, none)

/-- `GenerateKeypairArgs::execute`, `generate_keypair.rs:35-57`: the files, and the key pairs printed, if any;
`Vec::with_capacity` aborts if there is no room. -/
def generate (room : Nat) (io : Text → Write) (dir : Text) (rnd : Nat → Bytes × Bytes) (num : Nat) (fs : Files) :
    Outcome (Files × Option (List Keypair)) :=
  if room < num then .panic else .ok (generateFrom S io dir rnd num 0 fs)

/-- The entry of the output, `generate_keypair.rs:51-54`, with the texts of `Hex` and `Address`. -/
structure Printed where
  index : Nat
  netPriv : Hex.Text
  pubKey : Hex.Text
  address : Hex.Text
  peerId : Text
  blsPriv : Hex.Text
  blsPub : Hex.Text

/-- `Serialize` of `Keypair`, `generate_keypair.rs:60` -/
def printed (k : Keypair) : Outcome Printed :=
  (display S.digest k.address).bind fun a =>
    .ok ⟨k.index, Hex.asString k.netPriv, Hex.asString k.pubKey, a, k.peerId, Hex.asString k.blsPriv, Hex.asString k.blsPub⟩

/-- `RecoverKeypairArgs::execute`, `recover_keypair.rs:29-51` -/
def recover (fs : Files) (netPath blsPath : Text) : Option Keypair :=
  (fs netPath).bind fun net => (fs blsPath).bind fun bls => fromPrivateKeys S net bls 0

/-! ## The node -/

/-- `load_privkey_from_file`, `config.rs:146-179` -/
def loadKey (fs : Files) (p : Text) : Option Bytes := (fs p).bind fun b => if b.length = 32 then some b else none

/-- What a node is known by: its name in consensus (`NodeInfo::self_pub_key`, `core/consensus/src/consensus.rs:132`), the
address it proposes with (`self_address`), its peer id, and the BLS secret it signs with. -/
structure Identity where
  name : Bytes
  address : H160
  peerId : Bytes
  blsPriv : Bytes
deriving DecidableEq

/-- `parse_ref`, `config.rs:132-142`; `NetworkConfig::secio_keypair`; `init_network_service`, `core/run/src/lib.rs:316-328`;
`init_crypto`, line 381; `NodeInfo::new`, `protocol/src/traits/consensus.rs:30-42`.  `provider` is the public key of a key
provider, if one is given. -/
def start (fs : Files) (dir netFile blsFile : Text) (provider : Option Bytes) : Option Identity :=
  (loadKey fs (push dir netFile)).bind fun net =>
    (loadKey fs (push dir blsFile)).bind fun bls =>
      (S.netPub net).bind fun p =>
        (S.blsPub bls).bind fun _ =>
          (S.full p).map fun u => ⟨p, fromPubkey S.digest u, S.peerId (provider.getD p), bls⟩

/-- `Validator` and `ValidatorExtend`, `protocol/src/types/primitive.rs:515-541`, without the weights. -/
structure Validator where
  blsPub : Bytes
  pubKey : Bytes
  address : H160
deriving DecidableEq

/-- A validator read from a chain spec, and `From<Validator> for ValidatorExtend`, `primitive.rs:543-556`. -/
def readValidator (bls pub : Hex.Text) : Outcome Validator :=
  (Outcome.ofOption (Hex.fromStr bls)).bind fun b =>
    (Outcome.ofOption (Hex.fromStr pub)).bind fun p =>
      (Outcome.orPanic (fromPubkeyBytes S.digest S.full p)).bind fun a => .ok ⟨b, p, a⟩

/-- The peer ids `tag_consensus` tags, `core/run/src/components/network.rs:56-63`. -/
def tagged (vs : List Validator) : List Bytes := vs.map fun v => S.peerId v.pubKey

/-- The map of `init_crypto`, `core/run/src/lib.rs:383-389`: from names to BLS keys. -/
def blsKeys (vs : List Validator) : Bytes → Option Bytes :=
  vs.foldl (fun m v => fun n => if n = v.pubKey then some v.blsPub else m n) fun _ => none

/-! ## Lemmas -/

theorem put_same (fs : Files) (p : Text) (b : Bytes) : put fs p b p = some b := if_pos rfl

theorem put_other {fs : Files} {p q : Text} {b : Bytes} (h : q ≠ p) : put fs p b q = fs q := if_neg h

theorem push_inj {dir a b : Text} (ha : a.head? ≠ some '/') (hb : b.head? ≠ some '/') (h : push dir a = push dir b) : a = b := by
  unfold push at h
  rw [if_neg ha, if_neg hb] at h
  split at h
  · exact List.append_cancel_left h
  · exact List.tail_eq_of_cons_eq (List.append_cancel_left h)

end Axon.Keypair

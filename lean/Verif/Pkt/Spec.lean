import Verif.Base
import Verif.Oid.Spec
import Verif.Pkt.Model
/-! # The pkt-line format (gitprotocol-common: a four-digit hexadecimal length that counts itself, then the payload)

Only the vocabulary of results (`Pkt`, `Ack`) is taken from the model. -/
namespace Verif.Pkt.Spec
open Verif.Oid.Spec

/-- `ds` are four hexadecimal digits (either case) and `n` is the number they spell -/
def Len (ds : Bytes) (n : Nat) : Prop :=
  ∃ a b c d : UInt8, ds.mapM hexVal = some [a, b, c, d] ∧ n = ((a.toNat * 16 + b.toNat) * 16 + c.toNat) * 16 + d.toNat

/-- a data packet: the length, then a payload that is not empty -/
def DataLine (line payload : Bytes) : Prop :=
  ∃ ds, Len ds (payload.length + 4) ∧ line = ds ++ payload ∧ payload ≠ []

/-- forty digits, and the id they spell -/
def OidText (t id : Bytes) : Prop := id.length = 20 ∧ t.mapM hexVal = some (nibbles id)

/-- what a payload received after the reference advertisement says -/
inductive Means : Bytes → Pkt → Prop
  | data (bs) : Means (1 :: bs) (.data bs)
  | progress (bs) : Means (2 :: bs) (.progress bs)
  | sideError (bs) : Means (3 :: bs) (.error bs)
  | ack {t id} (rest) : OidText t id → rest.head? ≠ some c!" " → Means (b!"ACK " ++ t ++ rest) (.ack id .none)
  | ackContinue {t id} (rest) : OidText t id → Means (b!"ACK " ++ t ++ b!" continue" ++ rest) (.ack id .continue_)
  | ackCommon {t id} (rest) : OidText t id → Means (b!"ACK " ++ t ++ b!" common" ++ rest) (.ack id .common)
  | ackReady {t id} (rest) : OidText t id → Means (b!"ACK " ++ t ++ b!" ready" ++ rest) (.ack id .ready)
  | nak (rest) : Means (b!"NAK" ++ rest) .nak
  | err (text) : Means (b!"ERR " ++ text) (.error text)
  | comment (text) : Means (b!"#" ++ text) (.comment (b!"#" ++ text))
  | ok (name) : name.getLast? ≠ some c!"\n" → Means (b!"ok " ++ name) (.ok name)
  | okNl (name) : Means (b!"ok " ++ name ++ b!"\n") (.ok name)
  | ng (ref msg rest) : c!" " ∉ ref → c!"\n" ∉ msg → Means (b!"ng " ++ ref ++ b!" " ++ msg ++ b!"\n" ++ rest) (.ng ref msg)
  | unpackOk (rest) : Means (b!"unpack ok" ++ rest) (.unpack true)
  | unpackFailed (rest) : ¬ b!" ok" <+: rest → Means (b!"unpack" ++ rest) (.unpack false)
  | shallow {t id} : OidText t id → Means (b!"shallow " ++ t) (.shallow id)
  | unshallow {t id} : OidText t id → Means (b!"unshallow " ++ t) (.unshallow id)
  | ref {t id} (name) : OidText t id → 0 ∉ name → name ≠ [] → name.getLast? ≠ some c!"\n" →
      Means (t ++ b!" " ++ name) (.ref id name none)
  | refNl {t id} (name) : OidText t id → 0 ∉ name → Means (t ++ b!" " ++ name ++ b!"\n") (.ref id name none)

/-- a `shallow` or `unshallow` line whose forty characters are not all digits: the format has no such line -/
def Garbage (payload : Bytes) (p : Pkt) : Prop :=
  ∃ t id : Bytes, t.length = 40 ∧ t.mapM hexVal = none ∧
    ((payload = b!"shallow " ++ t ∧ p = .shallow id) ∨ (payload = b!"unshallow " ++ t ∧ p = .unshallow id))

/-- a complete line and its packet -/
def Line (line : Bytes) (p : Pkt) : Prop :=
  (line = b!"0000" ∧ p = .flush) ∨ ∃ payload, DataLine line payload ∧ (Means payload p ∨ Garbage payload p)

/-- the bytes at hand do not yet hold a whole line -/
def Incomplete (s : Bytes) : Prop := s.length < 4 ∨ ∃ n, Len (s.take 4) n ∧ s.length < n

/-- what a client is told about a stream of bytes: the packets in order, then the end of the stream (`EEOF`) or a protocol error -/
inductive Stream : Bytes → List Pkt → Int → Prop
  | eof {s} : Incomplete s → Stream s [] EEOF
  | pkt {line p rest ps e} : Line line p → Stream rest ps e → Stream (line ++ rest) (p :: ps) e
  | bad {s} : ¬ Incomplete s → (∀ line rest p, s = line ++ rest → ¬ Line line p) → Stream s [] (-1)

/-- one packet line as a client writes it -/
def digit16 (n : Nat) : UInt8 := digit (UInt8.ofNat n)
def pktline (payload : Bytes) : Bytes :=
  let n := payload.length + 4
  [digit16 (n / 4096 % 16), digit16 (n / 256 % 16), digit16 (n / 16 % 16), digit16 (n % 16)] ++ payload

end Verif.Pkt.Spec

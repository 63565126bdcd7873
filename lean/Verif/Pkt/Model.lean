import Verif.Dec
import Verif.Strtol.Model
import Verif.Oid.Model
import Verif.Loose.Model
/-! # Packet lines: src/libgit2/transports/smart_pkt.c, and the receive loop of smart_protocol.c / smart.c

SHA-1 build: `oid_type` is 0 (not known) or 1, an id is 20 bytes and 40 digits. Memory allocation succeeds.
A packet is parsed in a buffer; bytes of memory behind the buffer's end are a separate argument (`stale`: what the static
buffer of the transport still holds there), reading behind those too is `ub`. -/
namespace Verif.Pkt

/-- [include/git2/errors.h:35] -/
def EBUFS : Int := -6
/-- [include/git2/errors.h:56] -/
def EEOF : Int := -20

/-- `enum git_ack_status`: src/libgit2/transports/smart.h:61-66 -/
inductive Ack where
  | none | continue_ | common | ready
  deriving DecidableEq, Repr

/-- the `git_pkt_*` structures: src/libgit2/transports/smart.h:68-135. Texts are the bytes copied. For a reference, the name and the
capabilities are the two C strings seen by the reader. -/
inductive Pkt where
  | flush
  | ack (oid : Bytes) (status : Ack)
  | nak
  | comment (text : Bytes)
  | error (text : Bytes)
  | data (bytes : Bytes)
  | progress (bytes : Bytes)
  | ref (oid name : Bytes) (caps : Option Bytes)
  | ok (ref : Bytes)
  | ng (ref msg : Bytes)
  | unpack (ok : Bool)
  | shallow (oid : Bytes)
  | unshallow (oid : Bytes)
  deriving DecidableEq, Repr

/-- `git_pkt_parse_data`: src/libgit2/transports/smart.h:188-191 -/
structure Data where
  oidType : Nat
  seenCaps : Bool
  deriving DecidableEq, Repr

/-- `git_oid_hexsize`: src/libgit2/oid.h:53-67 -/
def hexsize (t : Nat) : Nat := if t = 1 then 40 else 0

/-- `git_oid_from_prefix(&oid, line, oid_hexsize, oid_type)`: src/libgit2/oid.c:31-60 -/
def readOid (line : Bytes) : Res Bytes := Oid.fromPrefix 20 line 40

/-- the word behind the id: src/libgit2/transports/smart_pkt.c:70-83 -/
def ackStatus (line : Bytes) : Option Ack :=
  if line.head? = some 0x20 then
    let line := line.drop 1
    if Loose.prefixEq line b!"continue" then some .continue_
    else if Loose.prefixEq line b!"common" then some .common
    else if Loose.prefixEq line b!"ready" then some .ready
    else none
  else some .none

/-- `ack_pkt`: src/libgit2/transports/smart_pkt.c:46-94 -/
def ackPkt (line : Bytes) (d : Data) : Res Pkt :=
  if d.oidType = 0 then .err (-1)
  else if !Loose.prefixEq line b!"ACK " then .err (-1)
  else
    let line := line.drop 4
    if line.length < hexsize d.oidType then .err (-1)
    else match readOid line with
      | .ub => .ub
      | .err _ => .err (-1)
      | .ok oid =>
        match ackStatus (line.drop (hexsize d.oidType)) with
        | some st => .ok (.ack oid st)
        | none => .err (-1)

/-- `err_pkt`: src/libgit2/transports/smart_pkt.c:128-157 -/
def errPkt (line : Bytes) : Res Pkt :=
  if !Loose.prefixEq line b!"ERR " then .err (-1) else .ok (.error (line.drop 4))

/-- `strncmp(caps, prefix, strlen(prefix)) == 0` in memory: reading stops at the first difference [used at src/libgit2/transports/smart_pkt.c:239] -/
def strncmpEq : Bytes → Bytes → Res Bool
  | _, [] => .ok true
  | [], _ :: _ => .ub
  | c :: s, p :: ps => if c ≠ p then .ok false else strncmpEq s ps

/-- `strstr(s, needle)` in memory, giving the text behind the occurrence found [used at src/libgit2/transports/smart_pkt.c:241] -/
def strstrAfter (needle : Bytes) : Bytes → Res (Option Bytes)
  | [] => .ub
  | c :: s =>
    if needle.isPrefixOf (c :: s) then .ok (some ((c :: s).drop needle.length))
    else if c = 0 then .ok none
    else strstrAfter needle s

/-- the text up to a space or to the NUL (`strchr` twice): src/libgit2/transports/smart_pkt.c:246-251 -/
def formatWord : Bytes → Res Bytes
  | [] => .ub
  | c :: s => if c = 0x20 ∨ c = 0 then .ok [] else (formatWord s) >>= fun w => .ok (c :: w)

/-- the search of the object format in the capabilities: src/libgit2/transports/smart_pkt.c:234-243; `mem` begins at `caps` -/
def findFormat (mem : Bytes) : Res (Option Bytes) :=
  match strncmpEq mem b!"object-format=" with
  | .ub => .ub
  | .err e => .err e
  | .ok true => .ok (some (mem.drop 14))
  | .ok false => strstrAfter b!" object-format=" mem

/-- the type of the ids announced by a first reference line: src/libgit2/transports/smart_pkt.c:234-260 and
src/libgit2/oid.h:93-116. `after` is the memory behind the line. -/
def remoteType (line after : Bytes) : Res Nat :=
  let rest := line.dropWhile (· ≠ 0)
  let fmt : Res (Option Bytes) := if rest.length > 1 then findFormat (rest.drop 1 ++ after) else .ok none
  match fmt with
  | .ub => .ub
  | .err e => .err e
  | .ok none => .ok 1
  | .ok (some s) =>
    match formatWord s with
    | .ub => .ub
    | .err e => .err e
    | .ok w => if w = b!"sha1" then .ok 1 else .err (-1)

/-- `set_data`: src/libgit2/transports/smart_pkt.c:224-272 -/
def setData (line after : Bytes) (d : Data) : Res Data :=
  match remoteType line after with
  | .ub => .ub
  | .err e => .err e
  | .ok t => if d.oidType = 0 then .ok { d with oidType := t } else if d.oidType ≠ t then .err (-1) else .ok d

/-- removing one final newline [as at src/libgit2/transports/smart_pkt.c:312, 356] -/
def chomp (line : Bytes) : Bytes := if line.getLast? = some 0x0a then line.dropLast else line

/-- `ref_pkt` after `set_data`: src/libgit2/transports/smart_pkt.c:292-331 -/
def refBody (line : Bytes) (d : Data) : Res (Pkt × Data) :=
  if d.oidType = 0 then .err (-1)
  else if line.length < hexsize d.oidType then .err (-1)
  else match readOid line with
    | .ub => .ub
    | .err _ => .err (-1)
    | .ok oid =>
      let line := line.drop (hexsize d.oidType)
      if !Loose.prefixEq line b!" " then .err (-1)
      else
        let line := line.drop 1
        if line = [] then .err (-1)
        else
          let text := chomp line
          let name := text.takeWhile (· ≠ 0)
          if name.length < text.length then
            if !d.seenCaps then
              .ok (.ref oid name (some ((text.drop (name.length + 1)).takeWhile (· ≠ 0))), { d with seenCaps := true })
            else .err (-1)
          else .ok (.ref oid name none, { d with seenCaps := true })

/-- `ref_pkt`: src/libgit2/transports/smart_pkt.c:277-340. (On failure `data` may have been updated; callers give up then.) -/
def refPkt (line after : Bytes) (d : Data) : Res (Pkt × Data) :=
  if !d.seenCaps then
    match setData line after d with
    | .ub => .ub
    | .err _ => .err (-1)
    | .ok d => refBody line d
  else refBody line d

/-- `ok_pkt`: src/libgit2/transports/smart_pkt.c:342-373 -/
def okPkt (line : Bytes) : Res Pkt :=
  if !Loose.prefixEq line b!"ok " then .err (-1) else .ok (.ok (chomp (line.drop 3)))

/-- `ng_pkt`: src/libgit2/transports/smart_pkt.c:375-427 -/
def ngPkt (line : Bytes) : Res Pkt :=
  if !Loose.prefixEq line b!"ng " then .err (-1)
  else
    let line := line.drop 3
    let ref := line.takeWhile (· ≠ 0x20)
    if ref.length = line.length then .err (-1)
    else
      let line := line.drop (ref.length + 1)
      if line = [] then .err (-1)
      else
        let msg := line.takeWhile (· ≠ 0x0a)
        if msg.length = line.length then .err (-1) else .ok (.ng ref msg)

/-- `unpack_pkt`: src/libgit2/transports/smart_pkt.c:429-444 -/
def unpackPkt (line : Bytes) : Res Pkt := .ok (.unpack (Loose.prefixEq line b!"unpack ok"))

/-- the id of a `shallow` / `unshallow` line; a text that is no id leaves what `git_oid_from_prefix` stored before failing, which is
modelled as the id of the leading digits: src/libgit2/transports/smart_pkt.c:471 and src/libgit2/oid.c:48-57 -/
def lenientLoop : Nat → Nat → Bytes → Bytes → Bytes
  | 0, _, id, _ => id
  | _ + 1, _, id, [] => id
  | n + 1, p, id, c :: s =>
    let v := Oid.fromhex c
    if v < 0 then id else lenientLoop n (p + 1) (Oid.orNibble id p (UInt8.ofNat v.toNat)) s

/-- `shallow_pkt`, `unshallow_pkt`: src/libgit2/transports/smart_pkt.c:446-522 -/
def shallowPkt (word : Bytes) (mk : Bytes → Pkt) (line : Bytes) (d : Data) : Res Pkt :=
  if d.oidType = 0 then .err (-1)
  else if !Loose.prefixEq line word then .err (-1)
  else
    let line := line.drop word.length
    if line.length ≠ hexsize d.oidType then .err (-1)
    else .ok (mk (lenientLoop 40 0 (List.replicate 20 0) line))

/-- `git__isxdigit`: src/util/ctype_compat.h:48-51 -/
def isxdigit (c : UInt8) : Bool :=
  (0x30 ≤ c ∧ c ≤ 0x39) ∨ (0x61 ≤ c ∧ c ≤ 0x66) ∨ (0x41 ≤ c ∧ c ≤ 0x46)

/-- `parse_len`: src/libgit2/transports/smart_pkt.c:524-560 -/
def parseLen (line : Bytes) : Res Nat :=
  if line.length < 4 then .err EBUFS
  else
    let num := line.take 4
    if !num.all isxdigit then .err (-1)
    else match Strtol.strntol32 num 16 with
      | .ub => .ub
      | .err e => .err e
      | .ok (v, _) => if v < 0 then .err (-1) else .ok v.toNat

/-- `git__prefixcmp(line, prefix) == 0`: src/util/util.c:241-255; it is not given a length -/
def prefixcmp (mem pre : Bytes) : Res Bool := strncmpEq mem pre

/-- results of a packet parser that leaves the parse data alone [src/libgit2/transports/smart_pkt.c:575-664] -/
def keep (d : Data) (r : Res Pkt) : Res (Pkt × Data) :=
  match r with
  | .ub => .ub
  | .err e => .err e
  | .ok p => .ok (p, d)

/-- the end of the dispatch (`shallow`, `unshallow`, or a reference): src/libgit2/transports/smart_pkt.c:652-656 -/
def lastCases (payload after : Bytes) (d : Data) : Res (Pkt × Data) :=
  match prefixcmp (payload ++ after) b!"shallow" with
    | .ub => .ub
    | .err e => .err e
    | .ok true => keep d (shallowPkt b!"shallow " .shallow payload d)
    | .ok false =>
      match prefixcmp (payload ++ after) b!"unshallow" with
      | .ub => .ub
      | .err e => .err e
      | .ok true => keep d (shallowPkt b!"unshallow " .unshallow payload d)
      | .ok false => refPkt payload after d

/-- the dispatch on the payload: src/libgit2/transports/smart_pkt.c:632-660. `payload` is not empty, `after` is the memory behind it. -/
def parsePayload (payload after : Bytes) (d : Data) : Res (Pkt × Data) :=
  if payload.head? = some 1 then .ok (.data (payload.drop 1), d)
  else if payload.head? = some 2 then .ok (.progress (payload.drop 1), d)
  else if payload.head? = some 3 then .ok (.error (payload.drop 1), d)
  else if Loose.prefixEq payload b!"ACK" then keep d (ackPkt payload d)
  else if Loose.prefixEq payload b!"NAK" then .ok (.nak, d)
  else if Loose.prefixEq payload b!"ERR" then keep d (errPkt payload)
  else if payload.head? = some 0x23 then .ok (.comment payload, d)
  else if Loose.prefixEq payload b!"ok" then keep d (okPkt payload)
  else if Loose.prefixEq payload b!"ng" then keep d (ngPkt payload)
  else if Loose.prefixEq payload b!"unpack" then keep d (unpackPkt payload)
  else lastCases payload after d

/-- `git_pkt_parse_line`: src/libgit2/transports/smart_pkt.c:575-664: the packet, the number of bytes consumed (`endptr - line`) and
the updated parse data. The buffer is `buf`, of `linelen` bytes; `stale` is the memory behind it. -/
def parseLine (buf stale : Bytes) (d : Data) : Res (Pkt × Nat × Data) :=
  match parseLen buf with
  | .ub => .ub
  | .err e => .err e
  | .ok len =>
    if buf.length < len then .err EBUFS
    else if len ≠ 0 ∧ len < 4 then .err (-1)
    else if len = 4 then .err (-1)
    else if len = 0 then .ok (.flush, 4, d)
    else
      let payload := (buf.drop 4).take (len - 4)
      match parsePayload payload (buf.drop len ++ stale) d with
      | .ub => .ub
      | .err e => .err e
      | .ok (p, d) => .ok (p, len, d)

/-! ## The receive loop -/

/-- `GIT_SMART_BUFFER_SIZE`: src/libgit2/transports/smart.h:20 -/
def BUFSZ : Nat := 65536

/-- the transport: what its buffer holds, what the remote will still send, and how often the stream has been read [src/libgit2/transports/smart.h:158-178] -/
structure Conn where
  buf : Bytes
  stream : Bytes
  reads : Nat
  deriving DecidableEq, Repr

/-- what the environment chooses: how many bytes the `i`-th read delivers, and the bytes in memory behind the buffer at that time [what src/libgit2/transports/smart.c:16-52 reads] -/
abbrev Env := Nat → Nat × Bytes

/-- `git_smart__recv`: src/libgit2/transports/smart.c:16-52. The stream's `read` delivers between 1 and the requested number of bytes
(as the environment chooses), or none at the end. The packet-size callback is not modelled. The result is the number of bytes read. -/
def recv (env : Env) (t : Conn) : Res (Nat × Conn) :=
  if BUFSZ - t.buf.length = 0 then .err (-1)
  else
    let n := min (max 1 (env t.reads).1) (min (BUFSZ - t.buf.length) t.stream.length)
    .ok (n, ⟨t.buf ++ t.stream.take n, t.stream.drop n, t.reads + 1⟩)

/-- `recv_pkt`: src/libgit2/transports/smart_protocol.c:265-309. `fuel` bounds the recursion; running out is `err 1`, which no theorem
allows. -/
def recvPkt (env : Env) : Nat → Conn → Data → Res (Pkt × Conn)
  | 0, _, _ => .err 1
  | fuel + 1, t, d =>
    let r : Res (Pkt × Nat × Data) := if t.buf.length > 0 then parseLine t.buf (env t.reads).2 d else .err EBUFS
    match r with
    | .ub => .ub
    | .ok (p, n, _) => .ok (p, { t with buf := t.buf.drop n })
    | .err e =>
      if e ≠ EBUFS then .err e
      else match recv env t with
        | .ub => .ub
        | .err e => .err e
        | .ok (n, t) => if n = 0 then .err EEOF else recvPkt env fuel t d

/-- the parse data `recv_pkt` uses: src/libgit2/transports/smart_protocol.c:275-276 -/
def recvData : Data := ⟨1, true⟩

/-- calling `recv_pkt` until it fails: the packets received, and how it ended [as src/libgit2/transports/smart_protocol.c:310-330] -/
def recvAll (env : Env) : Nat → Conn → List Pkt × Int
  | 0, _ => ([], 1)
  | fuel + 1, t =>
    match recvPkt env (t.stream.length + 1) t recvData with
    | .ub => ([], 2)
    | .err e => ([], e)
    | .ok (p, t) => let r := recvAll env fuel t; (p :: r.1, r.2)

/-! ## Writing -/

/-- [used at src/libgit2/transports/smart_pkt.c:748-862] -/
def hexChar (n : Nat) : UInt8 := (b!"0123456789abcdef").getD n 0

/-- `%x` [used at src/libgit2/transports/smart_pkt.c:748-862] -/
def hexNum (n : Nat) : Bytes :=
  if h : n < 16 then [hexChar n] else hexNum (n / 16) ++ [hexChar (n % 16)]
decreasing_by exact Nat.div_lt_self (by omega) (by decide)

/-- `%04x` [used at src/libgit2/transports/smart_pkt.c:748-862] -/
def hex04 (n : Nat) : Bytes := List.replicate (4 - (hexNum n).length) 0x30 ++ hexNum n

/-- `git_pkt_buffer_flush`: src/libgit2/transports/smart_pkt.c:691-694 -/
def bufferFlush : Bytes := b!"0000"

/-- `git_pkt_buffer_done`: src/libgit2/transports/smart_pkt.c:867-870 -/
def bufferDone : Bytes := b!"0009done\n"

/-- `git_pkt_buffer_have`: src/libgit2/transports/smart_pkt.c:845-865 -/
def bufferHave (oid : Bytes) : Res Bytes :=
  match Oid.fmt 20 oid with
  | .ok s => .ok (hex04 (4 + 5 + 40 + 1) ++ b!"have " ++ s ++ b!"\n")
  | .err e => .err e
  | .ub => .ub

/-- `transport_smart_caps`, the flags used when asking for objects: src/libgit2/transports/smart.h:137-154 -/
structure Caps where
  common : Bool
  multiAckDetailed : Bool
  multiAck : Bool
  sideBand64k : Bool
  sideBand : Bool
  includeTag : Bool
  thinPack : Bool
  ofsDelta : Bool
  shallow : Bool
  deriving DecidableEq, Repr

/-- the text of the capabilities: src/libgit2/transports/smart_pkt.c:707-733 -/
def capsText (c : Caps) : Bytes :=
  (if c.multiAckDetailed then b!"multi_ack_detailed " else if c.multiAck then b!"multi_ack " else []) ++
  (if c.sideBand64k then b!"side-band-64k " else if c.sideBand then b!"side-band " else []) ++
  (if c.includeTag then b!"include-tag " else []) ++
  (if c.thinPack then b!"thin-pack " else []) ++
  (if c.ofsDelta then b!"ofs-delta " else []) ++
  (if c.shallow then b!"shallow " else [])

/-- `buffer_want_with_caps`: src/libgit2/transports/smart_pkt.c:696-755 -/
def wantWithCaps (oid : Bytes) (c : Caps) : Res Bytes :=
  match Oid.fmt 20 oid with
  | .ok s =>
    let str := capsText c
    if str.length > 0xffff - ((4 + 5 + 40 + 1) + 1) then .err (-1)
    else
      let len := 4 + 5 + 40 + 1 + str.length + 1
      .ok (hex04 len ++ b!"want " ++ s ++ b!" " ++ str ++ b!"\n")
  | .err e => .err e
  | .ub => .ub

/-- one reference the caller wants: its id and whether it is already local [include/git2/net.h:41-51] -/
structure Want where
  oid : Bytes
  localRef : Bool
  deriving DecidableEq, Repr

/-- the remaining wants: src/libgit2/transports/smart_pkt.c:797-815 -/
def wantLoop : List Want → Res Bytes
  | [] => .ok []
  | w :: ws =>
    if w.localRef then wantLoop ws
    else match Oid.fmt 20 w.oid with
      | .ok s =>
        match wantLoop ws with
        | .ok r => .ok (hex04 (4 + 5 + 40 + 1) ++ b!"want " ++ s ++ b!"\n" ++ r)
        | e => e
      | .err e => .err e
      | .ub => .ub

/-- the shallow roots: src/libgit2/transports/smart_pkt.c:818-833 -/
def shallowLoop : List Bytes → Res Bytes
  | [] => .ok []
  | o :: os =>
    match Oid.fmt 20 o with
    | .ok s =>
      let line := b!"shallow " ++ s ++ b!"\n"
      match shallowLoop os with
      | .ok r => .ok (hex04 (line.length + 4) ++ line ++ r)
      | e => e
    | .err e => .err e
    | .ub => .ub

/-- `deepen`: src/libgit2/transports/smart_pkt.c:835-845 -/
def deepen (depth : Int) : Bytes :=
  if depth > 0 then
    let line := b!"deepen " ++ decimalInt depth ++ b!"\n"
    hex04 (line.length + 4) ++ line
  else []

/-- the first want, carrying the capabilities: src/libgit2/transports/smart_pkt.c:783-795. With no reference that is not local the
code dereferences `wants->refs[refs_len]`. The result is the text and the references still to be asked for. -/
def firstWant (refs : List Want) (c : Caps) : Res (Bytes × List Want) :=
  if c.common then
    match refs.dropWhile (·.localRef) with
    | [] => .ub
    | w :: ws =>
      match wantWithCaps w.oid c with
      | .ok t => .ok (t, ws)
      | .err e => .err e
      | .ub => .ub
  else .ok ([], refs)

/-- `git_pkt_buffer_wants`: src/libgit2/transports/smart_pkt.c:762-843 -/
def bufferWants (refs : List Want) (c : Caps) (roots : List Bytes) (depth : Int) : Res Bytes := do
  let (first, rest) ← firstWant refs c
  let more ← wantLoop rest
  let sh ← shallowLoop roots
  .ok (first ++ more ++ sh ++ deepen depth ++ bufferFlush)

end Verif.Pkt

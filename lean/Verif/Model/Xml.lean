import Verif.Model.Units
import Verif.Model.NodePath

/-!
# The XML documents (`src/xml.rs`, `src/{thin,cache,era}/xml.rs`)

`quick_xml` cuts a file into tags and is trusted for that: a document is the list of its tags (`Tok`).  Inside a tag everything is
modelled: the text of its attributes, written without escaping and read back attribute by attribute, the numbers, the matching of
end tags and the loops that hand the events to a visitor.  Strings are lists of characters.
-/

namespace Verif.Xml

open Verif.Units (showNat parseU64)

/-- strings -/
abbrev Str := List Char

/-- a key with its raw value, `quick_xml::events::attributes::Attribute` -/
structure Attr where
  key : String
  val : Str
  deriving DecidableEq, Repr

/-- what `Reader::read_event_into` gives, in the order of the file; `text` is the part of a tag after its name.  `other` is a
declaration, a processing instruction, CData or a doctype, `bad` an error of the reader (a tag that is not closed, …). -/
inductive Tok where
  | start (name : String) (text : Str)
  | empty (name : String) (text : Str)
  | close (name : String)
  | text
  | comment
  | other
  | bad
  deriving DecidableEq, Repr

/-- the result is an error, or a panic of `unwrap` -/
inductive XErr where
  | err
  | panic
  deriving DecidableEq, Repr

/-! ## Writing and reading attributes -/

/-- `push_attribute` with an `Attribute` made by `mk_attr` (`src/xml.rs:58-69`): the value is copied into the tag as it is, only a
`(&str, &str)` would be escaped -/
def attrText (as : List Attr) : Str := as.flatMap fun a => ' ' :: a.key.toList ++ '=' :: '"' :: a.val ++ ['"']

/-- XML white space -/
def ws (c : Char) : Bool := c = ' ' || c = '\n' || c = '\t' || c = '\r'

/-- where `e.attributes()` is in the text of a tag -/
inductive Pos where
  | skip
  | key (acc : Str)
  | keyWs (key : Str)
  | eq (key : Str)
  | val (key : Str) (quote : Char) (acc : Str)
  deriving DecidableEq, Repr

/-- `e.attributes()` (`quick_xml`): the attributes of a tag; `none` is an error, where `a.unwrap()` panics.  Only the first error
matters, the reading ends there. -/
def scan : Pos → Str → List (Option Attr)
  | .skip, [] => []
  | .skip, c :: cs => if ws c then scan .skip cs else if c = '=' then [none] else scan (.key [c]) cs
  | .key k, c :: cs => if c = '=' then scan (.eq k) cs else if ws c then scan (.keyWs k) cs else scan (.key (k ++ [c])) cs
  | .keyWs k, c :: cs => if ws c then scan (.keyWs k) cs else if c = '=' then scan (.eq k) cs else [none]
  | .eq k, c :: cs => if ws c then scan (.eq k) cs else if c = '"' ∨ c = '\'' then scan (.val k c []) cs else [none]
  | .val k q v, c :: cs => if c = q then some ⟨String.ofList k, v⟩ :: scan .skip cs else scan (.val k q (v ++ [c])) cs
  | _, [] => [none]

/-- the five entities of XML (`quick_xml::escape::resolve_predefined_entity`) -/
def entity (s : Str) : Option Str :=
  if s = ['l', 't'] then some ['<'] else if s = ['g', 't'] then some ['>'] else if s = ['a', 'm', 'p'] then some ['&']
  else if s = ['a', 'p', 'o', 's'] then some ['\''] else if s = ['q', 'u', 'o', 't'] then some ['"'] else none

/-- `quick_xml::escape::unescape`.  Simplification: references by number (`&#…;`) are errors here.  The second argument is the
name of the entity read so far. -/
def unescape : Option Str → Str → Option Str
  | none, [] => some []
  | some _, [] => none
  | none, c :: cs => if c = '&' then unescape (some []) cs else (unescape none cs).map (c :: ·)
  | some e, c :: cs =>
    if c = ';' then
      match entity e, unescape none cs with
      | some r, some t => some (r ++ t)
      | _, _ => none
    else unescape (some (e ++ [c])) cs

/-- errors of a value -/
def orErr {α : Type} : Option α → Except XErr α
  | some a => .ok a
  | none => .error .err

/-- `string_val`, `src/xml.rs:10-13` -/
def stringVal (a : Attr) : Except XErr Str := orErr (unescape none a.val)

/-- `u64_val`, `src/xml.rs:15-26`: `str::parse::<u64>` -/
def u64Val (a : Attr) : Except XErr Nat := orErr (parseU64 a.val)

/-- `u32_val`, `src/xml.rs:28-30`: `str::parse::<u32>`, the same text but a smaller limit -/
def u32Val (a : Attr) : Except XErr Nat := orErr ((parseU64 a.val).filter fun n => decide (n < 2 ^ 32))

/-- `bool_val`, `src/xml.rs:32-34` -/
def boolVal (a : Attr) : Except XErr Bool :=
  if a.val = ['t', 'r', 'u', 'e'] then .ok true else if a.val = ['f', 'a', 'l', 's', 'e'] then .ok false else .error .err

/-- `Display for bool` -/
def showBool (b : Bool) : Str := if b then ['t', 'r', 'u', 'e'] else ['f', 'a', 'l', 's', 'e']

/-- `check_attr`, `src/xml.rs:46-51` -/
def checkAttr {α : Type} : Option α → Except XErr α := orErr

/-- the loop `for a in e.attributes()` of every parser: an attribute that is not well-formed, or whose key occurred before
(`quick_xml` checks this), panics in `a.unwrap()`; `step` is the `match` on the key -/
def foldAttrs {σ : Type} (step : σ → Attr → Except XErr σ) : List String → σ → List (Option Attr) → Except XErr σ
  | _, s, [] => .ok s
  | _, _, none :: _ => .error .panic
  | seen, s, some a :: r =>
    if a.key ∈ seen then .error .panic
    else match step s a with
      | .error e => .error e
      | .ok s => foldAttrs step (a.key :: seen) s r

/-- the attributes of a tag -/
def attrs {σ : Type} (step : σ → Attr → Except XErr σ) (s : σ) (text : Str) : Except XErr σ := foldAttrs step [] s (scan .skip text)

/-! ## Visitors -/

/-- `Visit`, e.g. `src/thin/ir.rs:36-40` -/
inductive Visit where
  | continue
  | stop
  deriving DecidableEq, Repr

/-- one call of a visitor: the state it had, the event, the new state and what it returned -/
abbrev Visitor (E σ : Type) := σ → E → Except XErr (σ × Visit)

/-- the loop `while let Visit::Continue = handle_event(…)? {}` (`src/thin/xml.rs:257-321`, `src/cache/xml.rs:238-251`,
`src/era/xml.rs:300-313`) with `handle_event`.  `start`, `close` and `empty` are the arms of its `match` (`none`: nothing to visit),
`eof` the last call.  `quick_xml` checks that an end tag has the name of the last open tag (`opened`). -/
def read {E σ : Type} (start : String → Str → Except XErr E) (close : String → Except XErr E)
    (empty : String → Str → Except XErr (Option E)) (eof : E) (v : Visitor E σ) : List String → σ → List Tok → Except XErr σ
  | _, s, [] => match v s eof with | .error e => .error e | .ok r => .ok r.1
  | opened, s, .start n t :: ts =>
    match start n t with
    | .error e => .error e
    | .ok ev =>
      match v s ev with
      | .error e => .error e
      | .ok (s, .stop) => .ok s
      | .ok (s, .continue) => read start close empty eof v (n :: opened) s ts
  | opened, s, .close n :: ts =>
    match opened with
    | [] => .error .err
    | o :: opened =>
      if o ≠ n then .error .err
      else match close n with
        | .error e => .error e
        | .ok ev =>
          match v s ev with
          | .error e => .error e
          | .ok (s, .stop) => .ok s
          | .ok (s, .continue) => read start close empty eof v opened s ts
  | opened, s, .empty n t :: ts =>
    match empty n t with
    | .error e => .error e
    | .ok none => read start close empty eof v opened s ts
    | .ok (some ev) =>
      match v s ev with
      | .error e => .error e
      | .ok (s, .stop) => .ok s
      | .ok (s, .continue) => read start close empty eof v opened s ts
  | opened, s, .text :: ts => read start close empty eof v opened s ts
  | opened, s, .comment :: ts => read start close empty eof v opened s ts
  | _, _, .other :: _ => .error .err
  | _, _, .bad :: _ => .error .err

/-! ## Thin metadata -/

/-- `src/thin/ir.rs:5-15` -/
structure TSb where
  uuid : Str
  time : Nat
  transaction : Nat
  flags : Option Nat
  version : Option Nat
  blockSize : Nat
  nrData : Nat
  snap : Option Nat
  deriving DecidableEq, Repr

/-- `src/thin/ir.rs:17-24` -/
structure TDev where
  id : Nat
  mapped : Nat
  transaction : Nat
  creation : Nat
  snapTime : Nat
  deriving DecidableEq, Repr

/-- `src/thin/ir.rs:26-32` -/
structure TMap where
  thin : Nat
  data : Nat
  time : Nat
  len : Nat
  deriving DecidableEq, Repr

/-- the calls of `MetadataVisitor`, `src/thin/ir.rs:42-58` -/
inductive TEv where
  | sbB (sb : TSb)
  | sbE
  | defB (name : Str)
  | defE
  | devB (d : TDev)
  | devE
  | map (m : TMap)
  | ref (name : Str)
  | eof
  deriving DecidableEq, Repr

/-- an attribute with a number -/
def numAttr (key : String) (n : Nat) : Attr := ⟨key, showNat n⟩

/-- an attribute that may be missing -/
def optAttr (key : String) : Option Nat → List Attr
  | none => []
  | some n => [numAttr key n]

/-- `superblock_b`, `src/thin/xml.rs:27-47` (`METADATA_VERSION = 2`, line 24) -/
def tsbAttrs (sb : TSb) : List Attr :=
  [⟨"uuid", sb.uuid⟩, numAttr "time" sb.time, numAttr "transaction" sb.transaction] ++ optAttr "flags" sb.flags ++
  [numAttr "version" (sb.version.getD 2), numAttr "data_block_size" sb.blockSize, numAttr "nr_data_blocks" sb.nrData] ++
  optAttr "metadata_snap" sb.snap

/-- `device_b`, `src/thin/xml.rs:67-76` -/
def tdevAttrs (d : TDev) : List Attr :=
  [numAttr "dev_id" d.id, numAttr "mapped_blocks" d.mapped, numAttr "transaction" d.transaction,
   numAttr "creation_time" d.creation, numAttr "snap_time" d.snapTime]

/-- `XmlWriter`, `src/thin/xml.rs:26-116`: what a call writes (`eof` only flushes) -/
def thinWrite : TEv → List Tok
  | .sbB sb => [.start "superblock" (attrText (tsbAttrs sb))]
  | .sbE => [.close "superblock"]
  | .defB name => [.start "def" (attrText [⟨"name", name⟩])]
  | .defE => [.close "def"]
  | .devB d => [.start "device" (attrText (tdevAttrs d))]
  | .devE => [.close "device"]
  | .map m =>
    if m.len = 1 then
      [.empty "single_mapping" (attrText [numAttr "origin_block" m.thin, numAttr "data_block" m.data, numAttr "time" m.time])]
    else
      [.empty "range_mapping" (attrText [numAttr "origin_begin" m.thin, numAttr "data_begin" m.data, numAttr "length" m.len,
        numAttr "time" m.time])]
  | .ref name => [.empty "ref" (attrText [⟨"name", name⟩])]
  | .eof => []

/-- the variables of `parse_superblock`, `src/thin/xml.rs:121-128` -/
structure TSbA where
  uuid : Option Str
  time : Option Nat
  transaction : Option Nat
  flags : Option Nat
  version : Option Nat
  blockSize : Option Nat
  nrData : Option Nat
  snap : Option Nat

/-- `src/thin/xml.rs:130-143` -/
def tsbStep (x : TSbA) (a : Attr) : Except XErr TSbA :=
  if a.key = "uuid" then do let v ← stringVal a; .ok { x with uuid := some v }
  else if a.key = "time" then do let v ← u32Val a; .ok { x with time := some v }
  else if a.key = "transaction" then do let v ← u64Val a; .ok { x with transaction := some v }
  else if a.key = "flags" then do let v ← u32Val a; .ok { x with flags := some v }
  else if a.key = "version" then do let v ← u32Val a; .ok { x with version := some v }
  else if a.key = "data_block_size" then do let v ← u32Val a; .ok { x with blockSize := some v }
  else if a.key = "nr_data_blocks" then do let v ← u64Val a; .ok { x with nrData := some v }
  else if a.key = "metadata_snap" then do let v ← u64Val a; .ok { x with snap := some v }
  else .error .err

/-- `parse_superblock`, `src/thin/xml.rs:120-157` -/
def parseTSb (text : Str) : Except XErr TSb := do
  let x ← attrs tsbStep ⟨none, none, none, none, none, none, none, none⟩ text
  let uuid ← checkAttr x.uuid
  let time ← checkAttr x.time
  let transaction ← checkAttr x.transaction
  let blockSize ← checkAttr x.blockSize
  let nrData ← checkAttr x.nrData
  .ok ⟨uuid, time, transaction, x.flags, x.version, blockSize, nrData, x.snap⟩

/-- the loop of `parse_def`, `src/thin/xml.rs:162-170` -/
def defStep (_ : Option Str) (a : Attr) : Except XErr (Option Str) :=
  if a.key = "name" then do let v ← stringVal a; .ok (some v) else .error .err

/-- `parse_def`, `src/thin/xml.rs:159-173`: a missing name panics -/
def parseDef (text : Str) : Except XErr Str := do
  let x ← attrs defStep none text
  match x with
  | some n => .ok n
  | none => .error .panic

/-- the variables of `parse_device`, `src/thin/xml.rs:176-180` -/
structure TDevA where
  id : Option Nat
  mapped : Option Nat
  transaction : Option Nat
  creation : Option Nat
  snapTime : Option Nat

/-- `src/thin/xml.rs:182-192` -/
def tdevStep (x : TDevA) (a : Attr) : Except XErr TDevA :=
  if a.key = "dev_id" then do let v ← u32Val a; .ok { x with id := some v }
  else if a.key = "mapped_blocks" then do let v ← u64Val a; .ok { x with mapped := some v }
  else if a.key = "transaction" then do let v ← u64Val a; .ok { x with transaction := some v }
  else if a.key = "creation_time" then do let v ← u32Val a; .ok { x with creation := some v }
  else if a.key = "snap_time" then do let v ← u32Val a; .ok { x with snapTime := some v }
  else .error .err

/-- `parse_device`, `src/thin/xml.rs:175-203` -/
def parseTDev (text : Str) : Except XErr TDev := do
  let x ← attrs tdevStep ⟨none, none, none, none, none⟩ text
  let id ← checkAttr x.id
  let mapped ← checkAttr x.mapped
  let transaction ← checkAttr x.transaction
  let creation ← checkAttr x.creation
  let snapTime ← checkAttr x.snapTime
  .ok ⟨id, mapped, transaction, creation, snapTime⟩

/-- the variables of the two parsers of mappings, `src/thin/xml.rs:206-208,231-234` -/
structure TMapA where
  thin : Option Nat
  data : Option Nat
  time : Option Nat
  len : Option Nat

/-- `src/thin/xml.rs:210-218` -/
def singleStep (x : TMapA) (a : Attr) : Except XErr TMapA :=
  if a.key = "origin_block" then do let v ← u64Val a; .ok { x with thin := some v }
  else if a.key = "data_block" then do let v ← u64Val a; .ok { x with data := some v }
  else if a.key = "time" then do let v ← u32Val a; .ok { x with time := some v }
  else .error .err

/-- `parse_single_map`, `src/thin/xml.rs:205-228` -/
def parseSingle (text : Str) : Except XErr TMap := do
  let x ← attrs singleStep ⟨none, none, none, none⟩ text
  let thin ← checkAttr x.thin
  let data ← checkAttr x.data
  let time ← checkAttr x.time
  .ok ⟨thin, data, time, 1⟩

/-- `src/thin/xml.rs:236-245` -/
def rangeStep (x : TMapA) (a : Attr) : Except XErr TMapA :=
  if a.key = "origin_begin" then do let v ← u64Val a; .ok { x with thin := some v }
  else if a.key = "data_begin" then do let v ← u64Val a; .ok { x with data := some v }
  else if a.key = "time" then do let v ← u32Val a; .ok { x with time := some v }
  else if a.key = "length" then do let v ← u64Val a; .ok { x with len := some v }
  else .error .err

/-- `parse_range_map`, `src/thin/xml.rs:230-255` -/
def parseRangeMap (text : Str) : Except XErr TMap := do
  let x ← attrs rangeStep ⟨none, none, none, none⟩ text
  let thin ← checkAttr x.thin
  let data ← checkAttr x.data
  let time ← checkAttr x.time
  let len ← checkAttr x.len
  .ok ⟨thin, data, time, len⟩

/-- start tags, `src/thin/xml.rs:263-271` -/
def thinStart (n : String) (t : Str) : Except XErr TEv :=
  if n = "superblock" then do let sb ← parseTSb t; .ok (.sbB sb)
  else if n = "device" then do let d ← parseTDev t; .ok (.devB d)
  else if n = "def" then do let name ← parseDef t; .ok (.defB name)
  else .error .err

/-- end tags, `src/thin/xml.rs:272-280` -/
def thinClose (n : String) : Except XErr TEv :=
  if n = "superblock" then .ok .sbE else if n = "device" then .ok .devE else if n = "def" then .ok .defE else .error .err

/-- empty elements, `src/thin/xml.rs:281-289` -/
def thinEmpty (n : String) (t : Str) : Except XErr (Option TEv) :=
  if n = "single_mapping" then do let m ← parseSingle t; .ok (some (.map m))
  else if n = "range_mapping" then do let m ← parseRangeMap t; .ok (some (.map m))
  else if n = "ref" then do let name ← parseDef t; .ok (some (.ref name))
  else .error .err

/-- `xml::read`, `src/thin/xml.rs:308-321` -/
def thinRead {σ : Type} (v : Visitor TEv σ) (s : σ) (doc : List Tok) : Except XErr σ :=
  read thinStart thinClose thinEmpty .eof v [] s doc

/-- `SBVisitor`, `src/thin/xml.rs:325-365` -/
def sbVisitor : Visitor TEv (Option TSb) := fun s e =>
  match e with
  | .sbB sb => .ok (some sb, .stop)
  | .eof => .ok (s, .stop)
  | _ => .ok (s, .continue)

/-- `read_superblock`, `src/thin/xml.rs:367-374` -/
def readSuperblock (doc : List Tok) : Except XErr TSb := do
  let s ← thinRead sbVisitor none doc
  match s with
  | some sb => .ok sb
  | none => .error .panic

/-! ## Cache metadata -/

/-- `src/cache/ir.rs:5-12` -/
structure CSb where
  uuid : Str
  blockSize : Nat
  nrCache : Nat
  policy : Str
  hintWidth : Nat
  deriving DecidableEq, Repr

/-- the calls of `MetadataVisitor`, `src/cache/ir.rs:41-58` -/
inductive CEv where
  | sbB (sb : CSb)
  | sbE
  | mappingsB
  | mappingsE
  | mapping (cblock oblock : Nat) (dirty : Bool)
  | hintsB
  | hintsE
  | hint (cblock : Nat) (data : Bytes)
  | discardsB
  | discardsE
  | discard (b e : Nat)
  | eof
  deriving DecidableEq, Repr

/-- `XmlWriter`, `src/cache/xml.rs:27-109` -/
def cacheWrite : CEv → List Tok
  | .sbB sb => [.start "superblock" (attrText [⟨"uuid", sb.uuid⟩, numAttr "block_size" sb.blockSize,
      numAttr "nr_cache_blocks" sb.nrCache, ⟨"policy", sb.policy⟩, numAttr "hint_width" sb.hintWidth])]
  | .sbE => [.close "superblock"]
  | .mappingsB => [.start "mappings" []]
  | .mappingsE => [.close "mappings"]
  | .mapping c o d => [.empty "mapping" (attrText [numAttr "cache_block" c, numAttr "origin_block" o, ⟨"dirty", showBool d⟩])]
  | .hintsB => [.start "hints" []]
  | .hintsE => [.close "hints"]
  | .hint c data => [.empty "hint" (attrText [numAttr "cache_block" c, ⟨"data", NPath.encode64 data⟩])]
  | .discardsB => [.start "discards" []]
  | .discardsE => [.close "discards"]
  | .discard b e => [.empty "discard" (attrText [numAttr "dbegin" b, numAttr "dend" e])]
  | .eof => []

/-- the variables of `parse_superblock`, `src/cache/xml.rs:114-118` -/
structure CSbA where
  uuid : Option Str
  blockSize : Option Nat
  nrCache : Option Nat
  policy : Option Str
  hintWidth : Option Nat

/-- `src/cache/xml.rs:120-130` -/
def csbStep (x : CSbA) (a : Attr) : Except XErr CSbA :=
  if a.key = "uuid" then do let v ← stringVal a; .ok { x with uuid := some v }
  else if a.key = "block_size" then do let v ← u32Val a; .ok { x with blockSize := some v }
  else if a.key = "nr_cache_blocks" then do let v ← u32Val a; .ok { x with nrCache := some v }
  else if a.key = "policy" then do let v ← stringVal a; .ok { x with policy := some v }
  else if a.key = "hint_width" then do let v ← u32Val a; .ok { x with hintWidth := some v }
  else .error .err

/-- `parse_superblock`, `src/cache/xml.rs:113-141` -/
def parseCSb (text : Str) : Except XErr CSb := do
  let x ← attrs csbStep ⟨none, none, none, none, none⟩ text
  let uuid ← checkAttr x.uuid
  let blockSize ← checkAttr x.blockSize
  let nrCache ← checkAttr x.nrCache
  let policy ← checkAttr x.policy
  let hintWidth ← checkAttr x.hintWidth
  .ok ⟨uuid, blockSize, nrCache, policy, hintWidth⟩

/-- the variables of `parse_mapping`, `src/cache/xml.rs:144-146` -/
structure CMapA where
  cblock : Option Nat
  oblock : Option Nat
  dirty : Option Bool

/-- `src/cache/xml.rs:148-156` -/
def cmapStep (x : CMapA) (a : Attr) : Except XErr CMapA :=
  if a.key = "cache_block" then do let v ← u32Val a; .ok { x with cblock := some v }
  else if a.key = "origin_block" then do let v ← u64Val a; .ok { x with oblock := some v }
  else if a.key = "dirty" then do let v ← boolVal a; .ok { x with dirty := some v }
  else .error .err

/-- `parse_mapping`, `src/cache/xml.rs:143-165` -/
def parseCMap (text : Str) : Except XErr CEv := do
  let x ← attrs cmapStep ⟨none, none, none⟩ text
  let c ← checkAttr x.cblock
  let o ← checkAttr x.oblock
  let d ← checkAttr x.dirty
  .ok (.mapping c o d)

/-- `src/cache/xml.rs:171-178`; `STANDARD.decode` as in `Model/NodePath.lean` -/
def chintStep (x : Option Nat × Option Bytes) (a : Attr) : Except XErr (Option Nat × Option Bytes) :=
  if a.key = "cache_block" then do let v ← u32Val a; .ok (some v, x.2)
  else if a.key = "data" then do let v ← orErr (NPath.decode64 a.val); .ok (x.1, some v)
  else .error .err

/-- `parse_hint`, `src/cache/xml.rs:167-186` -/
def parseCHint (text : Str) : Except XErr CEv := do
  let x ← attrs chintStep (none, none) text
  let c ← checkAttr x.1
  let d ← checkAttr x.2
  .ok (.hint c d)

/-- start tags, `src/cache/xml.rs:194-202` -/
def cacheStart (n : String) (t : Str) : Except XErr CEv :=
  if n = "superblock" then do let sb ← parseCSb t; .ok (.sbB sb)
  else if n = "mappings" then .ok .mappingsB
  else if n = "hints" then .ok .hintsB
  else .error .err

/-- end tags, `src/cache/xml.rs:203-211` -/
def cacheClose (n : String) : Except XErr CEv :=
  if n = "superblock" then .ok .sbE else if n = "mappings" then .ok .mappingsE else if n = "hints" then .ok .hintsE else .error .err

/-- empty elements, `src/cache/xml.rs:212-219` -/
def cacheEmpty (n : String) (t : Str) : Except XErr (Option CEv) :=
  if n = "mapping" then do let m ← parseCMap t; .ok (some m)
  else if n = "hint" then do let h ← parseCHint t; .ok (some h)
  else .error .err

/-- `xml::read`, `src/cache/xml.rs:238-251` -/
def cacheRead {σ : Type} (v : Visitor CEv σ) (s : σ) (doc : List Tok) : Except XErr σ :=
  read cacheStart cacheClose cacheEmpty .eof v [] s doc

/-! ## Era metadata -/

/-- `src/era/ir.rs:5-11` -/
structure ESb where
  uuid : Str
  blockSize : Nat
  nrBlocks : Nat
  currentEra : Nat
  deriving DecidableEq, Repr

/-- the calls of `MetadataVisitor`, `src/era/ir.rs:40-53` -/
inductive EEv where
  | sbB (sb : ESb)
  | sbE
  | wsB (era nrBits : Nat)
  | wsE
  | blocks (b len : Nat)
  | eraB
  | eraE
  | era (block era : Nat)
  | eof
  deriving DecidableEq, Repr

/-- the fields of `XmlWriter`, `src/era/xml.rs:12-17` -/
structure EW where
  compact : Bool
  nrBlocks : Nat
  emitted : Nat
  deriving DecidableEq, Repr

/-- one `bit` element, `src/era/xml.rs:64-67` -/
def bitTok (value : Bool) (b : Nat) : Tok := .empty "bit" (attrText [numAttr "block" b, ⟨"value", showBool value⟩])

/-- the numbers `lo..hi` -/
def span (lo hi : Nat) : List Nat := (List.range (hi - lo)).map (lo + ·)

/-- `XmlWriter`, `src/era/xml.rs:30-126`; the sum of line 88 wraps (no overflow checks in a release build) -/
def eraWrite (w : EW) : EEv → List Tok × EW
  | .sbB sb => ([.start "superblock" (attrText [⟨"uuid", sb.uuid⟩, numAttr "block_size" sb.blockSize,
      numAttr "nr_blocks" sb.nrBlocks, numAttr "current_era" sb.currentEra])], { w with nrBlocks := sb.nrBlocks })
  | .sbE => ([.close "superblock"], w)
  | .wsB e n => ([.start "writeset" (attrText [numAttr "era" e, numAttr "nr_bits" n])], { w with emitted := 0 })
  | .wsE => ((if w.compact then [] else (span w.emitted w.nrBlocks).map (bitTok false)) ++ [.close "writeset"], w)
  | .blocks b len =>
    if w.compact then ([.empty "marked" (attrText [numAttr "block_begin" b, numAttr "len" len])], w)
    else ((span w.emitted b).map (bitTok false) ++ (span b ((b + len) % 2 ^ 32)).map (bitTok true),
      { w with emitted := (b + len) % 2 ^ 32 })
  | .eraB => ([.start "era_array" []], w)
  | .eraE => ([.close "era_array"], w)
  | .era b e => ([.empty "era" (attrText [numAttr "block" b, numAttr "era" e])], w)
  | .eof => ([], w)

/-- all calls, one after the other -/
def eraWriteAll : EW → List EEv → List Tok
  | _, [] => []
  | w, e :: es => (eraWrite w e).1 ++ eraWriteAll (eraWrite w e).2 es

/-- `XmlWriter::new`, `src/era/xml.rs:20-27` -/
def EW.new (compact : Bool) : EW := ⟨compact, 0, 0⟩

/-- the variables of `parse_superblock`, `src/era/xml.rs:132-135` -/
structure ESbA where
  uuid : Option Str
  blockSize : Option Nat
  nrBlocks : Option Nat
  currentEra : Option Nat

/-- `src/era/xml.rs:137-146` -/
def esbStep (x : ESbA) (a : Attr) : Except XErr ESbA :=
  if a.key = "uuid" then do let v ← stringVal a; .ok { x with uuid := some v }
  else if a.key = "block_size" then do let v ← u32Val a; .ok { x with blockSize := some v }
  else if a.key = "nr_blocks" then do let v ← u32Val a; .ok { x with nrBlocks := some v }
  else if a.key = "current_era" then do let v ← u32Val a; .ok { x with currentEra := some v }
  else .error .err

/-- `parse_superblock`, `src/era/xml.rs:130-154` -/
def parseESb (text : Str) : Except XErr ESb := do
  let x ← attrs esbStep ⟨none, none, none, none⟩ text
  let uuid ← checkAttr x.uuid
  let blockSize ← checkAttr x.blockSize
  let nrBlocks ← checkAttr x.nrBlocks
  let currentEra ← checkAttr x.currentEra
  .ok ⟨uuid, blockSize, nrBlocks, currentEra⟩

/-- the two numbers with the keys `k1` and `k2`: the loops of `parse_writeset` (`src/era/xml.rs:161-168`), `parse_writeset_blocks`
(208-215) and `parse_era` (228-235) -/
def pairStep (k1 k2 : String) (x : Option Nat × Option Nat) (a : Attr) : Except XErr (Option Nat × Option Nat) :=
  if a.key = k1 then do let v ← u32Val a; .ok (some v, x.2)
  else if a.key = k2 then do let v ← u32Val a; .ok (x.1, some v)
  else .error .err

/-- `parse_writeset`, `src/era/xml.rs:156-174`, `parse_writeset_blocks`, 203-221, and `parse_era`, 223-241 -/
def parsePair (k1 k2 : String) (text : Str) : Except XErr (Nat × Nat) := do
  let x ← attrs (pairStep k1 k2) (none, none) text
  let a ← checkAttr x.1
  let b ← checkAttr x.2
  .ok (a, b)

/-- `src/era/xml.rs:181-188` -/
def bitStep (x : Option Nat × Option Bool) (a : Attr) : Except XErr (Option Nat × Option Bool) :=
  if a.key = "block" then do let v ← u32Val a; .ok (some v, x.2)
  else if a.key = "value" then do let v ← boolVal a; .ok (x.1, some v)
  else .error .err

/-- `parse_writeset_bit`, `src/era/xml.rs:176-201` -/
def parseBit (text : Str) : Except XErr (Option EEv) := do
  let x ← attrs bitStep (none, none) text
  let b ← checkAttr x.1
  let v ← checkAttr x.2
  if v then .ok (some (.blocks b 1)) else .ok none

/-- start tags, `src/era/xml.rs:249-257` -/
def eraStart (n : String) (t : Str) : Except XErr EEv :=
  if n = "superblock" then do let sb ← parseESb t; .ok (.sbB sb)
  else if n = "writeset" then do let p ← parsePair "era" "nr_bits" t; .ok (.wsB p.1 p.2)
  else if n = "era_array" then .ok .eraB
  else .error .err

/-- end tags, `src/era/xml.rs:258-266` -/
def eraClose (n : String) : Except XErr EEv :=
  if n = "superblock" then .ok .sbE else if n = "writeset" then .ok .wsE else if n = "era_array" then .ok .eraE else .error .err

/-- empty elements, `src/era/xml.rs:267-281` -/
def eraEmpty (n : String) (t : Str) : Except XErr (Option EEv) :=
  if n = "bit" then parseBit t
  else if n = "marked" then do let p ← parsePair "block_begin" "len" t; .ok (some (.blocks p.1 p.2))
  else if n = "era" then do let p ← parsePair "block" "era" t; .ok (some (.era p.1 p.2))
  else .error .err

/-- `xml::read`, `src/era/xml.rs:300-313` -/
def eraRead {σ : Type} (v : Visitor EEv σ) (s : σ) (doc : List Tok) : Except XErr σ :=
  read eraStart eraClose eraEmpty .eof v [] s doc

end Verif.Xml

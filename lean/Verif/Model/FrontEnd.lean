import Verif.Model.Superblock

/-!
# What the commands check before they begin (`src/commands/utils.rs`, `src/file_utils.rs`)

A path is what `stat` says about it.  The content of a regular file or block device is a list of bytes; `readable` tells whether it can be opened for reading (errors
while reading behave like a file that cannot be opened: every caller treats both alike).
-/

namespace Verif.Front

/-- what `stat64` says about the type, `src/file_utils.rs:13-19` -/
inductive Kind where
  | regular | block | other
  deriving DecidableEq, Repr

structure File where
  kind : Kind
  content : Bytes
  readable : Bool
  deriving DecidableEq, Repr

/-- what is found at a path -/
inductive Entry where
  | missing
  | statFails
  | found (f : File)
  deriving DecidableEq, Repr

/-- `file_utils::is_file_or_blk`, `src/file_utils.rs:17-19,38-40`; `none` is an error -/
def isFileOrBlk : Entry → Option Bool
  | .found f => some (f.kind = .block ∨ f.kind = .regular)
  | _ => none

/-- `file_utils::file_size`, `src/file_utils.rs:66-81`: a block device must be opened for that -/
def fileSize : Entry → Option Nat
  | .found f =>
    match f.kind with
    | .regular => some f.content.length
    | .block => if f.readable then some f.content.length else none
    | .other => none
  | _ => none

/-- `check_input_file`, `src/commands/utils.rs:48-66` -/
def checkInputFile (e : Entry) : Bool := isFileOrBlk e = some true

/-- `check_file_not_tiny`, `src/commands/utils.rs:68-76` -/
def checkFileNotTiny (e : Entry) : Bool :=
  match fileSize e with
  | some n => if n ≤ 4095 then false else true
  | none => false

/-- `check_output_file`, `src/commands/utils.rs:78-91` -/
def checkOutputFile (e : Entry) : Bool :=
  match fileSize e with
  | some n => if n ≤ 40959 then false else true
  | none => false

/-- `File::open` and `read_exact` of `n` bytes, e.g. `src/commands/utils.rs:108-110,129-131` -/
def readStart (e : Entry) (n : Nat) : Option Bytes :=
  match e with
  | .found f => if f.readable ∧ n ≤ f.content.length then some (f.content.take n) else none
  | _ => none

/-- `is_xml`, `src/commands/utils.rs:103-105`: `<superblock`, `?xml`, `<!DOCTYPE` -/
def isXml (line : Bytes) : Bool :=
  List.isPrefixOf [60, 115, 117, 112, 101, 114, 98, 108, 111, 99, 107] line || List.isPrefixOf [63, 120, 109, 108] line ||
    List.isPrefixOf [60, 33, 68, 79, 67, 84, 89, 80, 69] line

/-- `is_xml_file`, `src/commands/utils.rs:107-112` -/
def isXmlFile (e : Entry) : Option Bool := (readStart e 16).map isXml

/-- `check_not_xml`, `src/commands/utils.rs:117-124` -/
def checkNotXml (e : Entry) : Bool :=
  match isXmlFile e with
  | some true => false
  | _ => true

/-- `is_metadata`, `src/commands/utils.rs:126-134` -/
def isMetadata (crc : Bytes → UInt32) (e : Entry) : Option Bool :=
  (readStart e 4096).map fun sb =>
    match metadataBlockType crc sb with
    | .thinSuperblock => true
    | .cacheSuperblock => true
    | .eraSuperblock => true
    | _ => false

/-- `char::is_whitespace` (the Unicode property `White_Space`) -/
def isSpace (c : Char) : Bool :=
  (9 ≤ c.toNat && c.toNat ≤ 13) || c.toNat = 32 || c.toNat = 0x85 || c.toNat = 0xa0 || c.toNat = 0x1680 || (0x2000 ≤ c.toNat && c.toNat ≤ 0x200a) ||
    c.toNat = 0x2028 || c.toNat = 0x2029 || c.toNat = 0x202f || c.toNat = 0x205f || c.toNat = 0x3000

/-- `trim_end` -/
def trimEnd (s : List Char) : List Char := (s.reverse.dropWhile isSpace).reverse

/-- `yes_no_prompt`, `src/commands/utils.rs:136-144`; `answer` is the line read, `none` if it cannot be read.  `to_lowercase` is modelled for ASCII; no other
character has `y`, `e` or `s` as its lower case. -/
def yesNo (answer : Option (List Char)) : Option Bool :=
  answer.map fun input =>
    let input := (trimEnd input).map Char.toLower
    input = ['y', 'e', 's'] || input = ['y']

/-- `check_overwrite_metadata`, `src/commands/utils.rs:149-161`: true if the tool goes on -/
def checkOverwrite (crc : Bytes → UInt32) (e : Entry) (answer : Option (List Char)) : Bool :=
  if isFileOrBlk e = some true ∧ isMetadata crc e = some true ∧ ¬ (yesNo answer = some true) then false else true

/-- `thin_check`, `cache_check`, `era_check`: `src/commands/thin_check.rs:124-129`, `src/commands/cache_check.rs:103-108`, `src/commands/era_check.rs:73-78` -/
def checkGuard (input : Entry) : Bool := checkInputFile input && checkFileNotTiny input && checkNotXml input

/-- `thin_repair`, `cache_repair`, `era_repair`: `src/commands/thin_repair.rs:94-99`, `src/commands/cache_repair.rs:72-77`, `src/commands/era_repair.rs:69-74` -/
def repairGuard (input output : Entry) : Bool := checkInputFile input && checkFileNotTiny input && checkOutputFile output

/-- `thin_restore`, `cache_restore`, `era_restore`: `src/commands/thin_restore.rs:91`, `src/commands/cache_restore.rs:86`, `src/commands/era_restore.rs:70` -/
def restoreGuard (input output : Entry) : Bool := checkInputFile input && checkOutputFile output

/-- `thin_metadata_pack`: `src/commands/thin_metadata_pack.rs:58-70` -/
def packGuard (crc : Bytes → UInt32) (force : Bool) (input output : Entry) (answer : Option (List Char)) : Bool :=
  checkGuard input && (force || checkOverwrite crc output answer)

/-- `thin_metadata_unpack`: `src/commands/thin_metadata_unpack.rs:65-74` -/
def unpackGuard (crc : Bytes → UInt32) (force : Bool) (input output : Entry) (answer : Option (List Char)) : Bool :=
  checkInputFile input && (force || checkOverwrite crc output answer)

end Verif.Front

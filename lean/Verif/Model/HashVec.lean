/-!
# `HashVec` (`src/utils/hashvec.rs`)

The `HashMap` is trusted to be a map and is a function here; `T` is the type of the values.
-/

namespace Verif.HVec

/-- `src/utils/hashvec.rs:8-11` -/
structure HVec (T : Type) where
  map : Nat → Option Nat
  entries : List T

variable {T : Type}

/-- `src/utils/hashvec.rs:20-25` -/
def HVec.new : HVec T := ⟨fun _ => none, []⟩

/-- `src/utils/hashvec.rs:34-44`; the index is cut to 32 bits (`as u32`), an index out of range panics (`none`) -/
def HVec.insert (h : HVec T) (k : Nat) (v : T) : Option (HVec T) :=
  match h.map k with
  | some e => if e < h.entries.length then some { h with entries := h.entries.set e v } else none
  | none =>
    let entries := h.entries ++ [v]
    some { map := fun x => if x = k then some ((entries.length - 1) % 2 ^ 32) else h.map x, entries := entries }

/-- `src/utils/hashvec.rs:46-48`: the outer `Option` is the panic -/
def HVec.get (h : HVec T) (k : Nat) : Option (Option T) :=
  match h.map k with
  | some i => if i < h.entries.length then some h.entries[i]? else none
  | none => some none

/-- `src/utils/hashvec.rs:50-52` -/
def HVec.len (h : HVec T) : Nat := h.entries.length

/-- `src/utils/hashvec.rs:54-56` -/
def HVec.isEmpty (h : HVec T) : Bool := h.entries.isEmpty

/-- `src/utils/hashvec.rs:63-65` -/
def HVec.values (h : HVec T) : List T := h.entries

/-- a history of insertions -/
def HVec.insertAll (h : HVec T) : List (Nat × T) → Option (HVec T)
  | [] => some h
  | (k, v) :: l => (h.insert k v).bind fun h' => h'.insertAll l

end Verif.HVec

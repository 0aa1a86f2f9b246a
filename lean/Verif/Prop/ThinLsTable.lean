import Verif.Model.ThinLs
import Verif.Prop.Units

/-!
# C66: the table `thin_ls` prints

`Table.text` says what a table looks like; the cells can be read back from it (`table_words`).
-/

namespace Verif.Ls

namespace Table

/-- the width of a column -/
def width (rows : List (List (List Char))) (j : Nat) : Nat := (rows.map fun r => (r.getD j []).length).foldl max 0

/-- a cell: right aligned, then a space -/
def pad (w : Nat) (c : List Char) : List Char := List.replicate (w - c.length) ' ' ++ c ++ [' ']

/-- one line for each row -/
def text (rows : List (List (List Char))) : List Char := rows.flatMap fun r => (r.mapIdx fun j c => pad (width rows j) c).flatten ++ ['\n']

end Table

theorem widen_length : ∀ (row : List (List Char)) (ws : List Nat), (widen row ws).length = ws.length := by
  intro row
  induction row with
  | nil => intro ws; cases ws <;> rfl
  | cons c cs ih => intro ws; cases ws with
    | nil => rfl
    | cons w ws => simp [widen, ih]

theorem widen_get : ∀ (row : List (List Char)) (ws : List Nat) (j : Nat), j < ws.length → (widen row ws).getD j 0 = max (ws.getD j 0) (row.getD j []).length := by
  intro row
  induction row with
  | nil => intro ws j hj; cases ws <;> simp [widen]
  | cons c cs ih =>
    intro ws j hj
    cases ws with
    | nil => simp at hj
    | cons w ws =>
      cases j with
      | zero => simp [widen]
      | succ j =>
        have := ih ws j (by simpa using hj)
        simpa [widen] using this

theorem foldl_widen (rows : List (List (List Char))) : ∀ (ws : List Nat), (rows.foldl (fun ws row => widen row ws) ws).length = ws.length ∧
    ∀ j, j < ws.length → (rows.foldl (fun ws row => widen row ws) ws).getD j 0 = (rows.map fun r => (r.getD j []).length).foldl max (ws.getD j 0) := by
  induction rows with
  | nil => intro ws; exact ⟨rfl, fun _ _ => rfl⟩
  | cons r rows ih =>
    intro ws
    obtain ⟨h1, h2⟩ := ih (widen r ws)
    refine ⟨h1.trans (widen_length r ws), fun j hj => ?_⟩
    rw [List.foldl_cons, h2 j (by rw [widen_length]; exact hj), widen_get r ws j hj]
    rfl

theorem zip_justified (ws : List Nat) (g : Nat → Nat) : ∀ (row : List (List Char)) (k : Nat), k + row.length ≤ ws.length → (∀ j, j < ws.length → ws.getD j 0 = g j) →
    (row.zip (ws.drop k)).flatMap (fun c => justified c.1 c.2) = (row.mapIdx fun j c => Table.pad (g (k + j)) c).flatten := by
  intro row
  induction row with
  | nil => intro k _ _; simp
  | cons c cs ih =>
    intro k hk hg
    simp only [List.length_cons] at hk
    have hlt : k < ws.length := by omega
    rw [List.drop_eq_getElem_cons hlt, List.zip_cons_cons, List.flatMap_cons, ih (k + 1) (by omega) hg, List.mapIdx_cons, List.flatten_cons]
    have h1 : ws[k] = g k := by
      have := hg k hlt
      rwa [List.getD_eq_getElem?_getD, List.getElem?_eq_getElem hlt] at this
    simp only [Nat.add_zero]
    rw [h1]
    have h2 : ∀ j, g (k + 1 + j) = g (k + (j + 1)) := fun j => by rw [Nat.add_assoc, Nat.add_comm 1 j]
    simp only [h2]
    rfl

/-- **C66.**  A grid of rows of the same length is printed as a table. -/
theorem render_table (rows : List (List (List Char))) (cur : List (List Char)) (cols : Nat) (h : ∀ r ∈ rows, r.length = cols) : Grid.render ⟨rows, cur, cols⟩ = Table.text rows := by
  obtain ⟨h1, h2⟩ := foldl_widen rows (List.replicate cols 0)
  have hw : ∀ j, j < cols → (Grid.widths ⟨rows, cur, cols⟩).getD j 0 = Table.width rows j := by
    intro j hj
    have := h2 j (by simpa using hj)
    rw [show (List.replicate cols 0).getD j 0 = 0 by simp [List.getD_eq_getElem?_getD, hj]] at this
    exact this
  have hlen : (Grid.widths ⟨rows, cur, cols⟩).length = cols := by
    exact h1.trans List.length_replicate
  unfold Grid.render Table.text
  simp only
  have : ∀ l : List (List (List Char)), (∀ r ∈ l, r ∈ rows) → l.flatMap (line (Grid.widths ⟨rows, cur, cols⟩)) = l.flatMap fun r => (r.mapIdx fun j c => Table.pad (Table.width rows j) c).flatten ++ ['\n'] := by
    intro l
    induction l with
    | nil => intro _; rfl
    | cons r l ih =>
      intro hl
      rw [List.flatMap_cons, List.flatMap_cons, ih fun x hx => hl x (by simp [hx])]
      congr 1
      unfold line
      congr 1
      have := zip_justified (Grid.widths ⟨rows, cur, cols⟩) (Table.width rows) r 0 (by rw [hlen, h r (hl r (by simp))]; omega) (fun j hj => hw j (by omega))
      rw [List.drop_zero] at this
      rw [this]
      simp
  exact this rows fun _ h => h

/-! ## Reading the table -/

/-- the words of a text and its line ends: a list of lines of words -/
def wordsGo : List Char → List (List Char) → List Char → List (List (List Char))
  | _, _, [] => []
  | cur, ws, c :: cs =>
    if c = '\n' then (ws ++ if cur = [] then [] else [cur]) :: wordsGo [] [] cs
    else if c = ' ' then wordsGo [] (ws ++ if cur = [] then [] else [cur]) cs
    else wordsGo (cur ++ [c]) ws cs

/-- the lines of a text, each as the words between spaces -/
def readTable (s : List Char) : List (List (List Char)) := wordsGo [] [] s

/-- a cell that can be told from spaces -/
def Solid (c : List Char) : Prop := c ≠ [] ∧ ' ' ∉ c ∧ '\n' ∉ c

theorem words_spaces : ∀ (n : Nat) (ws : List (List Char)) (s : List Char), wordsGo [] ws (List.replicate n ' ' ++ s) = wordsGo [] ws s := by
  intro n
  induction n with
  | zero => intro ws s; rfl
  | succ n ih =>
    intro ws s
    rw [List.replicate_succ, List.cons_append, wordsGo, if_neg (by decide), if_pos rfl, if_pos rfl, List.append_nil, ih]

theorem words_solid : ∀ (c cur : List Char) (ws : List (List Char)) (s : List Char), ' ' ∉ c → '\n' ∉ c → wordsGo cur ws (c ++ s) = wordsGo (cur ++ c) ws s := by
  intro c
  induction c with
  | nil => intro cur ws s _ _; simp
  | cons x c ih =>
    intro cur ws s h1 h2
    simp only [List.mem_cons, not_or] at h1 h2
    rw [List.cons_append, wordsGo, if_neg (fun h => h2.1 h.symm), if_neg (fun h => h1.1 h.symm), ih _ _ _ h1.2 h2.2, List.append_assoc]
    rfl

theorem words_pad (w : Nat) (c : List Char) (hc : Solid c) (ws : List (List Char)) (s : List Char) : wordsGo [] ws (Table.pad w c ++ s) = wordsGo [] (ws ++ [c]) s := by
  unfold Table.pad
  rw [List.append_assoc, List.append_assoc, words_spaces, words_solid c _ _ _ hc.2.1 hc.2.2, List.nil_append, List.cons_append, wordsGo, if_neg (by decide), if_pos rfl, if_neg hc.1]
  rfl

theorem words_row (g : Nat → Nat) : ∀ (r : List (List Char)) (k : Nat) (ws : List (List Char)) (s : List Char), (∀ c ∈ r, Solid c) →
    wordsGo [] ws ((r.mapIdx fun j c => Table.pad (g (k + j)) c).flatten ++ ['\n'] ++ s) = (ws ++ r) :: wordsGo [] [] s := by
  intro r
  induction r with
  | nil => intro k ws s _; simp [wordsGo]
  | cons c cs ih =>
    intro k ws s h
    rw [List.mapIdx_cons, List.flatten_cons, List.append_assoc, List.append_assoc, words_pad _ _ (h c (by simp))]
    have h2 : ∀ j, g (k + (j + 1)) = g (k + 1 + j) := fun j => by rw [Nat.add_assoc, Nat.add_comm 1 j]
    simp only [h2]
    have := ih (k + 1) (ws ++ [c]) s fun x hx => h x (by simp [hx])
    rw [List.append_assoc] at this
    rw [this, List.append_assoc]
    rfl

/-- **C66.**  The cells can be read back from the text: a table says what was put into it. -/
theorem table_words (rows : List (List (List Char))) (h : ∀ r ∈ rows, ∀ c ∈ r, Solid c) : readTable (Table.text rows) = rows := by
  unfold readTable Table.text
  generalize Table.width rows = g
  induction rows with
  | nil => rfl
  | cons r rows ih =>
    rw [List.flatMap_cons]
    have := words_row g r 0 [] (rows.flatMap fun r => (r.mapIdx fun j c => Table.pad (g j) c).flatten ++ ['\n']) (h r (by simp))
    simp only [Nat.zero_add, List.nil_append] at this
    rw [this, ih fun x hx => h x (by simp [hx])]

/-- **C66.**  All lines of a table have the same length. -/
theorem table_aligned (rows : List (List (List Char))) (cols : Nat) (h : ∀ r ∈ rows, r.length = cols) : ∀ r ∈ rows,
    (r.mapIdx fun j c => Table.pad (Table.width rows j) c).flatten.length = ((List.range cols).map fun j => Table.width rows j + 1).sum := by
  intro r hr
  have hle : ∀ j, (r.getD j []).length ≤ Table.width rows j := by
    intro j
    have : ∀ (l : List (List (List Char))) (a : Nat), (∀ x ∈ l, (x.getD j []).length ≤ (l.map fun r => (r.getD j []).length).foldl max a) ∧ a ≤ (l.map fun r => (r.getD j []).length).foldl max a := by
      intro l
      induction l with
      | nil => intro a; exact ⟨by simp, Nat.le_refl _⟩
      | cons y l ih =>
        intro a
        obtain ⟨h1, h2⟩ := ih (max a (y.getD j []).length)
        rw [List.map_cons, List.foldl_cons]
        refine ⟨fun x hx => ?_, by omega⟩
        rcases List.mem_cons.mp hx with rfl | hx
        · omega
        · exact h1 x hx
    exact (this rows 0).1 r hr
  have key : ∀ (cs : List (List Char)) (g : Nat → Nat) (k : Nat), (∀ j, (cs.getD j []).length ≤ g (k + j)) → (cs.mapIdx fun j c => Table.pad (g (k + j)) c).flatten.length = ((List.range cs.length).map fun j => g (k + j) + 1).sum := by
    intro cs g
    induction cs with
    | nil => intro k _; rfl
    | cons c cs ih =>
      intro k hk
      have h2 : ∀ j, g (k + (j + 1)) = g (k + 1 + j) := fun j => by rw [Nat.add_assoc, Nat.add_comm 1 j]
      rw [List.mapIdx_cons, List.flatten_cons, List.length_append, List.length_cons, List.range_succ_eq_map, List.map_cons, List.sum_cons, List.map_map]
      simp only [h2, Function.comp_def, Nat.succ_eq_add_one]
      rw [ih (k + 1) (fun j => by have := hk (j + 1); rw [h2] at this; simpa using this)]
      have hk0 := hk 0
      simp only [List.getD_cons_zero] at hk0
      congr 1
      simp only [Table.pad, List.length_append, List.length_replicate, List.length_singleton, Nat.add_zero] at *
      omega
  have := key r (Table.width rows) 0 (fun j => by rw [Nat.zero_add]; exact hle j)
  simp only [Nat.zero_add] at this
  rw [this, h r hr]

/-! ## The names of the fields -/

theorem pick {p : Prop} [Decidable p] {f g : Field} {e : Option Field} (h : (if p then some f else e) = some g) : (p ∧ f = g) ∨ e = some g := by
  by_cases hp : p
  · rw [if_pos hp] at h; cases h; exact Or.inl ⟨hp, rfl⟩
  · rw [if_neg hp] at h; exact Or.inr h

/-- **C66.**  Every field is asked for by the name that heads its column, and by no other. -/
theorem field_names (s : List Char) (f : Field) : Field.parse s = some f ↔ s = f.name := by
  constructor
  · intro h
    unfold Field.parse at h
    iterate 20 (
      rcases pick h with ⟨h1, rfl⟩ | h
      · exact h1)
    cases h
  · rintro rfl
    cases f <;> decide +kernel

theorem name_solid (f : Field) : Solid f.name := by cases f <;> (refine ⟨?_, ?_, ?_⟩ <;> decide +kernel)

end Verif.Ls

import Verif.Util.SpyModel
import Mathlib.Tactic.Ring

/-! C45: files written by `Spy` are read back by the viewer. -/

namespace Slp.SpyFile

open Slp (Fl)

/-! ### Specification -/

/-- The numbers an `int32_t` can hold. -/
def IsInt32 (n : ℤ) : Prop := -2147483648 ≤ n ∧ n < 2147483648

/-- A header whose numbers fit. -/
structure Header.Fits (h : Header) : Prop where
  title : IsInt32 h.title.length
  rowLabel : IsInt32 h.rowLabel.length
  colLabel : IsInt32 h.colLabel.length
  rows : IsInt32 h.rows
  cols : IsInt32 h.cols

/-- The sign of a coefficient; NaN counts as zero. -/
noncomputable def signOf : Fl → ℤ
  | .fin x => SignType.sign x
  | .pinf => 1
  | .ninf => -1
  | .nan => 0

/-- The pattern of a matrix, by column. -/
noncomputable def pattern (mat : SparseColumns) : List Point :=
  mat.zipIdx.flatMap fun c => c.1.map fun e => ⟨e.1, c.2, signOf e.2⟩

/-- A matrix whose indices and number of entries fit. -/
structure MatrixFits (mat : SparseColumns) : Prop where
  rows : ∀ c ∈ mat, ∀ e ∈ c, IsInt32 e.1
  cols : IsInt32 mat.length
  entries : IsInt32 (mat.map List.length).sum

/-! ### Integers -/

theorem byteOf_val (n : ℤ) (k : ℕ) : ((byteOf n k).val : ℤ) = n / 256 ^ k % 256 := by
  unfold byteOf
  have h1 : 0 ≤ n / 256 ^ k % 256 := Int.emod_nonneg _ (by norm_num)
  have h2 : n / 256 ^ k % 256 < 256 := Int.emod_lt_of_pos _ (by norm_num)
  rw [Fin.val_ofNat, Nat.mod_eq_of_lt (by omega)]
  omega

theorem ofBytes_byteOf {n : ℤ} (h : IsInt32 n) :
    ofBytes (byteOf n 0) (byteOf n 1) (byteOf n 2) (byteOf n 3) = n := by
  obtain ⟨h1, h2⟩ := h
  unfold ofBytes
  simp only [byteOf_val]
  norm_num
  split <;> omega

theorem ofBytes_int32 (a b c d : Byte) : IsInt32 (ofBytes a b c d) := by
  unfold IsInt32 ofBytes
  have := a.2; have := b.2; have := c.2; have := d.2
  simp only
  split <;> omega

theorem byteOf_ofBytes (a b c d : Byte) : byteOf (ofBytes a b c d) 0 = a ∧ byteOf (ofBytes a b c d) 1 = b ∧
    byteOf (ofBytes a b c d) 2 = c ∧ byteOf (ofBytes a b c d) 3 = d := by
  have := a.2; have := b.2; have := c.2; have := d.2
  refine ⟨?_, ?_, ?_, ?_⟩ <;> apply Fin.ext <;> apply Int.natCast_inj.1 <;> rw [byteOf_val] <;> unfold ofBytes <;>
    norm_num <;> split <;> omega

/-- The bytes in the file do not depend on the machine. -/
theorem write32le_native (native : Endian) (n : ℤ) :
    write32le native n = [byteOf n 0, byteOf n 1, byteOf n 2, byteOf n 3] := by
  cases native
  · rfl
  · unfold write32le inMemory byteswap
    obtain ⟨h1, h2, h3, h4⟩ := byteOf_ofBytes (byteOf n 3) (byteOf n 2) (byteOf n 1) (byteOf n 0)
    rw [h1, h2, h3, h4]

theorem read_write {n : ℤ} (h : IsInt32 n) (native : Endian) (rest : List Byte) :
    read32 (write32le native n ++ rest) = some (n, rest) := by
  rw [write32le_native]
  simp [read32, ofBytes_byteOf h]

theorem read_string (native : Endian) {s : List Byte} (h : IsInt32 s.length) (rest : List Byte) :
    readString (writeString native s ++ rest) = some (s, rest) := by
  unfold readString writeString
  rw [List.append_assoc, read_write h]
  simp

/-! ### Patterns -/

theorem sign_read (x : Fl) : (if signChar x = 43 then (1 : ℤ) else if signChar x = 45 then -1 else 0) = signOf x := by
  unfold signChar
  cases x with
  | fin x =>
    simp only [Fl.zero_def, Fl.fin_lt, signOf]
    rcases lt_trichotomy x 0 with h | h | h
    · rw [if_neg (not_lt.2 h.le), if_pos h, sign_neg h]; decide
    · subst h; simp
    · rw [if_pos h, sign_pos h]; decide
  | pinf =>
    rw [if_pos (show (0 : Fl) < .pinf from trivial)]; decide
  | ninf =>
    rw [if_neg (show ¬ (0 : Fl) < .ninf from id), if_pos (show Fl.ninf < (0 : Fl) from trivial)]; decide
  | nan =>
    rw [if_neg (show ¬ (0 : Fl) < .nan from id), if_neg (show ¬ Fl.nan < (0 : Fl) from id)]; decide

theorem read_point (native : Endian) (k : ℕ) (e : ℤ × Fl) (h : IsInt32 e.1) (hk : IsInt32 k) (rest : List Byte) :
    readPoint (writeEntry native k e ++ rest) = some (⟨e.1, k, signOf e.2⟩, rest) := by
  unfold readPoint writeEntry
  simp only [List.append_assoc]
  rw [read_write h]
  simp only [Option.bind_eq_bind, Option.bind_some]
  rw [read_write hk]
  simp only [Option.bind_some, List.cons_append, List.nil_append, sign_read]

theorem read_points_append {n m : ℕ} {a b : List Byte} {p : List Point}
    (h : readPoints n (a ++ b) = some (p, b)) :
    readPoints (n + m) (a ++ b) = (readPoints m b).map fun r => (p ++ r.1, r.2) := by
  have key : ∀ n bytes p rest', readPoints n bytes = some (p, rest') →
      readPoints (n + m) bytes = (readPoints m rest').map fun r => (p ++ r.1, r.2) := by
    intro n
    induction n with
    | zero =>
      intro bytes p rest' h
      simp only [readPoints, Option.some.injEq, Prod.mk.injEq] at h
      obtain ⟨rfl, rfl⟩ := h
      simp
    | succ n ih =>
      intro bytes p rest' h
      simp only [readPoints, Option.bind_eq_bind, Option.bind_eq_some_iff] at h
      obtain ⟨⟨q, r1⟩, h1, ⟨q2, r2⟩, h2, h3⟩ := h
      simp only [Option.some.injEq, Prod.mk.injEq] at h3
      obtain ⟨rfl, rfl⟩ := h3
      rw [show n + 1 + m = (n + m) + 1 by ring]
      simp only [readPoints, h1, Option.bind_eq_bind, Option.bind_some, ih _ _ _ h2]
      cases readPoints m r2 <;> simp
  exact key n _ p b h

theorem read_column (native : Endian) (k : ℕ) (c : List (ℤ × Fl)) (h : ∀ e ∈ c, IsInt32 e.1) (hk : IsInt32 k)
    (rest : List Byte) :
    readPoints c.length ((c.flatMap fun e => writeEntry native k e) ++ rest) =
      some (c.map fun e => ⟨e.1, k, signOf e.2⟩, rest) := by
  induction c with
  | nil => rfl
  | cons e c ih =>
    simp only [List.flatMap_cons, List.length_cons, List.append_assoc, readPoints]
    rw [read_point native k e (h e (by simp)) hk]
    simp only [Option.bind_eq_bind, Option.bind_some]
    rw [ih fun e he => h e (by simp [he])]
    rfl

theorem read_columns (native : Endian) (l : List (List (ℤ × Fl) × ℕ)) (h : ∀ c ∈ l, ∀ e ∈ c.1, IsInt32 e.1)
    (hk : ∀ c ∈ l, IsInt32 c.2) (rest : List Byte) :
    readPoints (l.map fun c => c.1.length).sum
      ((l.flatMap fun c => c.1.flatMap fun e => writeEntry native c.2 e) ++ rest) =
      some (l.flatMap fun c => c.1.map fun e => ⟨e.1, c.2, signOf e.2⟩, rest) := by
  induction l with
  | nil => rfl
  | cons c l ih =>
    simp only [List.flatMap_cons, List.map_cons, List.sum_cons, List.append_assoc]
    rw [read_points_append (read_column native c.2 c.1 (h c (by simp)) (hk c (by simp)) _),
      ih (fun d hd => h d (by simp [hd])) fun d hd => hk d (by simp [hd])]
    rfl

theorem read_pattern (native : Endian) {mat : SparseColumns} (h : MatrixFits mat) (rest : List Byte) :
    readPattern (add native mat ++ rest) = some (pattern mat, rest) := by
  unfold readPattern add
  rw [List.append_assoc, read_write (by exact_mod_cast h.entries)]
  simp only [Option.bind_eq_bind, Option.bind_some, Int.toNat_natCast]
  have hl : (mat.map List.length).sum = (mat.zipIdx.map fun c => c.1.length).sum := by
    congr 1
    rw [show (fun c : List (ℤ × Fl) × ℕ => c.1.length) = List.length ∘ Prod.fst from rfl, ← List.map_map,
      List.zipIdx_map_fst]
  rw [hl, read_columns native mat.zipIdx]
  · rfl
  · intro c hc e he
    obtain ⟨c, k⟩ := c
    exact h.rows c (List.fst_mem_of_mem_zipIdx hc) e he
  · intro c hc
    obtain ⟨c, k⟩ := c
    have := List.snd_lt_of_mem_zipIdx hc
    have hc2 := h.cols
    unfold IsInt32 at *
    simp only at *
    omega

theorem read_patterns (native : Endian) {mats : List SparseColumns} (h : ∀ m ∈ mats, MatrixFits m) (rest : List Byte) :
    readPatterns (mats.flatMap (add native) ++ rest) = mats.map pattern ++ readPatterns rest := by
  induction mats with
  | nil => rfl
  | cons m mats ih =>
    rw [List.flatMap_cons, List.append_assoc, readPatterns]
    split
    · rename_i ps r hp
      rw [read_pattern native (h m (by simp))] at hp
      simp only [Option.some.injEq, Prod.mk.injEq] at hp
      obtain ⟨rfl, rfl⟩ := hp
      rw [ih fun m hm => h m (by simp [hm])]
      rfl
    · rename_i hp
      rw [read_pattern native (h m (by simp))] at hp
      cases hp

theorem read_header (native : Endian) {h : Header} (hh : h.Fits) (rest : List Byte) :
    read (writeHeader native h ++ rest) = some (h, readPatterns rest) := by
  unfold read writeHeader
  simp only [List.append_assoc]
  rw [read_string native hh.title]
  simp only [Option.bind_eq_bind, Option.bind_some]
  rw [read_string native hh.rowLabel]
  simp only [Option.bind_some]
  rw [read_string native hh.colLabel]
  simp only [Option.bind_some]
  rw [read_write hh.rows]
  simp only [Option.bind_some]
  rw [read_write hh.cols]
  rfl

/-- C45: on every machine, the viewer reads from a file exactly the header and the sequence of patterns written to it. -/
theorem spy_round_trip (native : Endian) {h : Header} (hh : h.Fits) {mats : List SparseColumns}
    (hm : ∀ m ∈ mats, MatrixFits m) : read (file native h mats) = some (h, mats.map pattern) := by
  unfold file
  rw [read_header native hh]
  have := read_patterns native hm []
  rw [List.append_nil] at this
  rw [this]
  have : readPatterns [] = [] := by rw [readPatterns]; rfl
  rw [this, List.append_nil]

/-! ### Interrupted runs -/

theorem write32le_length (native : Endian) (n : ℤ) : (write32le native n).length = 4 := by
  rw [write32le_native]; rfl

theorem read32_none {bytes : List Byte} (h : bytes.length < 4) : read32 bytes = none := by
  unfold read32
  split
  · simp only [List.length_cons] at h; omega
  · rfl

theorem read32_drop {bytes : List Byte} {n rest} (h : read32 bytes = some (n, rest)) : rest = bytes.drop 4 := by
  unfold read32 at h
  split at h
  · simp only [Option.some.injEq, Prod.mk.injEq] at h
    rw [← h.2]; rfl
  · cases h

theorem readPoint_drop {bytes : List Byte} {p rest} (h : readPoint bytes = some (p, rest)) :
    rest = bytes.drop 9 ∧ 9 ≤ bytes.length := by
  simp only [readPoint, Option.bind_eq_bind, Option.bind_eq_some_iff] at h
  obtain ⟨⟨y, r1⟩, h1, ⟨x, r2⟩, h2, h3⟩ := h
  have l1 := read32_length h1
  have l2 := read32_length h2
  have e1 := read32_drop h1
  have e2 := read32_drop h2
  simp only at *
  split at h3
  · cases h3
  · rename_i s rest'
    simp only [Option.some.injEq, Prod.mk.injEq] at h3
    simp only [List.length_cons] at l2
    refine ⟨?_, by omega⟩
    rw [e1, List.drop_drop] at e2
    have := congrArg (List.drop 1) e2
    rw [List.drop_drop] at this
    rw [← h3.2]
    simpa using this

theorem readPoints_short (native : Endian) (l : List (ℕ × (ℤ × Fl))) {n : ℕ} (hn : n = l.length) (k : ℕ)
    (hk : k < (l.flatMap fun e => writeEntry native e.1 e.2).length) :
    readPoints n ((l.flatMap fun e => writeEntry native e.1 e.2).take k) = none := by
  have hlen : ∀ e : ℕ × (ℤ × Fl), (writeEntry native e.1 e.2).length = 9 := by
    intro e; unfold writeEntry; simp [write32le_length]
  induction l generalizing n k with
  | nil => simp at hk
  | cons e l ih =>
    subst hn
    simp only [List.flatMap_cons, List.length_cons, readPoints]
    simp only [List.flatMap_cons, List.length_append, hlen] at hk
    by_cases h9 : k < 9
    · have : readPoint ((writeEntry native e.1 e.2 ++ l.flatMap fun e => writeEntry native e.1 e.2).take k) = none := by
        have hl : ((writeEntry native e.1 e.2 ++ l.flatMap fun e => writeEntry native e.1 e.2).take k).length = k := by
          simp [hlen]; omega
        revert hl
        generalize (writeEntry native e.1 e.2 ++ l.flatMap fun e => writeEntry native e.1 e.2).take k = b
        intro hl
        cases hp : readPoint b with
        | none => rfl
        | some r => have := (readPoint_drop (p := r.1) (rest := r.2) hp).2; omega
      rw [this]; rfl
    · have : (writeEntry native e.1 e.2 ++ l.flatMap fun e => writeEntry native e.1 e.2).take k =
          writeEntry native e.1 e.2 ++ (l.flatMap fun e => writeEntry native e.1 e.2).take (k - 9) := by
        rw [List.take_append, hlen, List.take_of_length_le (by rw [hlen]; omega)]
      rw [this]
      cases hp : readPoint (writeEntry native e.1 e.2 ++ (l.flatMap fun e => writeEntry native e.1 e.2).take (k - 9)) with
      | none => rfl
      | some r =>
        have hr : r.2 = (l.flatMap fun e => writeEntry native e.1 e.2).take (k - 9) := by
          rw [(readPoint_drop (p := r.1) (rest := r.2) hp).1, List.drop_append, hlen, Nat.sub_self, List.drop_zero,
            List.drop_of_length_le (by rw [hlen]), List.nil_append]
        simp only [Option.bind_eq_bind, Option.bind_some, hr]
        rw [ih rfl (k - 9) (by omega)]
        rfl

/-- The end of a file whose last pattern was not written completely. -/
theorem readPatterns_short (native : Endian) {mat : SparseColumns} (h : MatrixFits mat) (k : ℕ)
    (hk : k < (add native mat).length) : readPatterns ((add native mat).take k) = [] := by
  have : readPattern ((add native mat).take k) = none := by
    unfold readPattern
    by_cases h4 : k < 4
    · have hl : ((add native mat).take k).length = k := by simp; omega
      rw [read32_none (by rw [hl]; exact h4)]
      rfl
    · have he : (add native mat) = write32le native (mat.map List.length).sum ++
          ((mat.zipIdx.flatMap fun c => c.1.map fun e => (c.2, e)).flatMap fun e => writeEntry native e.1 e.2) := by
        unfold add
        rw [List.flatMap_assoc]
        simp only [List.flatMap_map]
      have hn : (mat.map List.length).sum = (mat.zipIdx.flatMap fun c => c.1.map fun e => (c.2, e)).length := by
        rw [List.length_flatMap]
        simp only [List.length_map]
        congr 1
        rw [show (fun c : List (ℤ × Fl) × ℕ => c.1.length) = List.length ∘ Prod.fst from rfl, ← List.map_map,
          List.zipIdx_map_fst]
      rw [he] at hk ⊢
      rw [List.length_append, write32le_length] at hk
      rw [List.take_append, write32le_length, List.take_of_length_le (by rw [write32le_length]; omega),
        read_write (by exact_mod_cast h.entries)]
      simp only [Option.bind_eq_bind, Option.bind_some, Int.toNat_natCast]
      exact readPoints_short native _ hn _ (by omega)
  rw [readPatterns]
  split
  · rename_i hp; rw [this] at hp; cases hp
  · rfl

/-- C45: if the program stops while the file is being written, the viewer shows the patterns that were written
completely. -/
theorem spy_interrupted (native : Endian) {h : Header} (hh : h.Fits) {mats : List SparseColumns} {last : SparseColumns}
    (hm : ∀ m ∈ mats, MatrixFits m) (hl : MatrixFits last) (k : ℕ) (hk : k < (add native last).length) :
    read (file native h mats ++ (add native last).take k) = some (h, mats.map pattern) := by
  unfold file
  rw [List.append_assoc, read_header native hh, read_patterns native hm, readPatterns_short native hl k hk,
    List.append_nil]

/-- The hypotheses, for two patterns of a 2 × 2 matrix. -/
example : read (file .big ⟨[72], [82, 83], [], 2, 2⟩ [[[(0, .fin 1), (1, .fin (-3))], [(1, .nan)]], [[], [(0, .ninf)]]]) =
    some (⟨[72], [82, 83], [], 2, 2⟩, [[⟨0, 0, 1⟩, ⟨1, 0, -1⟩, ⟨1, 1, 0⟩], [⟨0, 1, -1⟩]]) := by
  rw [spy_round_trip]
  · simp [pattern, signOf]
  · constructor <;> simp [IsInt32]
  · simp only [List.mem_cons, List.not_mem_nil, or_false, forall_eq_or_imp, forall_eq]
    constructor <;> constructor <;> simp [IsInt32]; rintro a b (⟨rfl, -⟩ | ⟨rfl, -⟩) <;> simp

/-- Titles of 2 GiB and more are not read back: their length becomes negative. -/
theorem spy_long_title (native : Endian) {h : Header} {rest : List Byte} (h1 : 2147483648 ≤ h.title.length)
    (h2 : h.title.length < 4294967296) : read (writeHeader native h ++ rest) = none := by
  have h3 : ∀ rest, read32 (write32le native h.title.length ++ rest) = some ((h.title.length : ℤ) - 4294967296, rest) := by
    intro rest
    rw [write32le_native]
    have : ofBytes (byteOf h.title.length 0) (byteOf h.title.length 1) (byteOf h.title.length 2)
        (byteOf h.title.length 3) = (h.title.length : ℤ) - 4294967296 := by
      unfold ofBytes
      simp only [byteOf_val]
      norm_num
      split <;> omega
    simp only [List.cons_append, List.nil_append, read32, this]
  have h4 : ∀ rest, readString (writeString native h.title ++ rest) = none := by
    intro rest
    unfold readString writeString
    rw [List.append_assoc, h3]
    simp only [Option.bind_eq_bind, Option.bind_some]
    rw [if_neg (by omega)]
  unfold read writeHeader
  simp only [List.append_assoc, h4]
  rfl

end Slp.SpyFile

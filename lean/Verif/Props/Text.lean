import Verif.Proofs.Text
import Verif.Props.Simplicial

set_option linter.unusedSectionVars false
set_option linter.unusedVariables false
set_option linter.unusedSimpArgs false

/-! # C43: the text formats

Files and strings are lists of characters; `Txt.Stream.ofStr s` is a stream in good state in front of `s`. -/

namespace BATS
open Txt

variable {V : Type}

/-! ### what is read back, type by type -/

/-- values of a 32-bit `int` -/
def IsInt32 (z : Int) : Prop := -2147483648 ≤ z ∧ z < 2147483648

namespace Txt

theorem prints_int {z : Int} (h : IsInt32 z) : Prints intCodec z z := ⟨⟨[], by simp [intCodec], rfl, by simp, by simp⟩, h.1, h.2⟩

theorem prints_modp {P : Nat} (hP : P ≤ 2147483648) {x : Int} (h0 : 0 ≤ x) (h1 : x < P) : Prints (modpCodec P) x x ∧ (modpCodec P).ofInt x = x := by
  refine ⟨⟨⟨[], by simp [modpCodec], rfl, by simp, by simp⟩, by omega, by omega⟩, ?_⟩
  show (x + P) % 4294967296 % P = x
  rw [Int.emod_eq_of_lt (a := x + P) (by omega) (by omega), Int.add_emod_right, Int.emod_eq_of_lt h0 h1]

theorem prints_mod2 (a : Mod2.Store) : Prints mod2Codec a (Mod2.toInt a) ∧ Mod2.eq (mod2Codec.ofInt (Mod2.toInt a)) a = true := by
  refine ⟨⟨⟨[], by simp [mod2Codec], rfl, by simp, by simp⟩, ?_, ?_⟩, ?_⟩
  · have := BitVec.le_toInt (a &&& 1#32)
    simpa [Mod2.toInt] using this
  · have := BitVec.toInt_lt (x := a &&& 1#32)
    simpa [Mod2.toInt] using this
  · show ((BitVec.ofInt 32 (a &&& 1#32).toInt &&& 1#32) == (a &&& 1#32)) = true
    rw [BitVec.ofInt_toInt, BitVec.and_assoc, BitVec.and_self]
    simp

theorem prints_rational {q : Rational} (h : IsInt32 q.n) : Prints rationalCodec q q.n := by
  refine ⟨⟨'/' :: showInt q.d, rfl, rfl, ?_, ?_⟩, h.1, h.2⟩
  · simp [comma_showInt]
  · simp [nl_showInt]

theorem entries_self {c : Codec V} {v : List (Nat × V)} (f : V → V) (h : ∀ p ∈ v, p.1 < 2147483648 ∧ ∃ z, Prints c p.2 z ∧ f p.2 = c.ofInt z) :
    List.Forall₂ (EntryOK c) v (v.map fun p => (p.1, f p.2)) := by
  induction v with
  | nil => exact .nil
  | cons p v ih =>
    obtain ⟨h1, z, h2, h3⟩ := h p (by simp)
    exact .cons ⟨h1, rfl, z, h2, h3⟩ (ih fun q hq => h q (by simp [hq]))

theorem cols_self {c : Codec V} {M : List (SVec V)} (f : V → V)
    (h : ∀ v ∈ M, ∀ p ∈ v, p.1 < 2147483648 ∧ ∃ z, Prints c p.2 z ∧ f p.2 = c.ofInt z) :
    ColsRead c M (M.map fun v => v.map fun p => (p.1, f p.2)) := by
  induction M with
  | nil => exact .nil
  | cons v M ih => exact .cons (entries_self f (h v (by simp))) (ih fun q hq => h q (by simp [hq]))

theorem line_of {c : Codec V} {v w : List (Nat × V)} (h : List.Forall₂ (EntryOK c) v w) (tail : Str) :
    ∃ line, getline '\n' (Stream.ofStr (writeVec c v ++ tail)) [] = (Stream.ofStr tail, line) ∧ readVec c line = .ok w := by
  refine ⟨vecLine c v, ?_, readVec_line h⟩
  unfold writeVec Stream.ofStr
  rw [List.append_assoc]
  exact getline_delim (nl_vecLine h) _ _

end Txt

/-! ### round trips -/

/-- C43: `SparseVector<int>::write` prints one line, and the constructor from that line gives back the vector, for all indices below 2^31
and all values of an `int`. -/
theorem C43_vector_int {v : List (Nat × Int)} (h : ∀ p ∈ v, p.1 < 2147483648 ∧ IsInt32 p.2) (tail : Str) :
    ∃ line, getline '\n' (Stream.ofStr (writeVec intCodec v ++ tail)) [] = (Stream.ofStr tail, line) ∧ readVec intCodec line = .ok v := by
  have := line_of (entries_self (c := intCodec) id (fun p hp => ⟨(h p hp).1, p.2, prints_int (h p hp).2, rfl⟩)) tail
  simpa using this

/-- C43: the same for `ModP<int, P>` with canonical representatives. -/
theorem C43_vector_modp {P : Nat} (hP : P ≤ 2147483648) {v : List (Nat × Int)} (h : ∀ p ∈ v, p.1 < 2147483648 ∧ 0 ≤ p.2 ∧ p.2 < P) (tail : Str) :
    ∃ line, getline '\n' (Stream.ofStr (writeVec (modpCodec P) v ++ tail)) [] = (Stream.ofStr tail, line) ∧ readVec (modpCodec P) line = .ok v := by
  have := line_of (entries_self (c := modpCodec P) id
    (fun p hp => ⟨(h p hp).1, p.2, (prints_modp hP (h p hp).2.1 (h p hp).2.2).1, (prints_modp hP (h p hp).2.1 (h p hp).2.2).2.symm⟩)) tail
  simpa using this

/-- C43: for `ModP<int, 2>` every entry read back compares equal to the one written, whatever the stored bits. -/
theorem C43_vector_mod2 {v : List (Nat × Mod2.Store)} (h : ∀ p ∈ v, p.1 < 2147483648) (tail : Str) :
    ∃ line w, getline '\n' (Stream.ofStr (writeVec mod2Codec v ++ tail)) [] = (Stream.ofStr tail, line) ∧ readVec mod2Codec line = .ok w ∧
      List.Forall₂ (fun p q => q.1 = p.1 ∧ Mod2.eq q.2 p.2 = true) v w := by
  obtain ⟨line, h1, h2⟩ := line_of (entries_self (c := mod2Codec) (fun a => mod2Codec.ofInt (Mod2.toInt a))
    (fun p hp => ⟨h p hp, Mod2.toInt p.2, (prints_mod2 p.2).1, rfl⟩)) tail
  refine ⟨line, _, h1, h2, ?_⟩
  rw [List.forall₂_map_right_iff, List.forall₂_same]
  exact fun p _ => ⟨rfl, (prints_mod2 p.2).2⟩

/-- C43: for `Rational` the denominators are lost: every value `n/d` comes back as `n/1`, without an error. -/
theorem C43_vector_rational {v : List (Nat × Rational)} (h : ∀ p ∈ v, p.1 < 2147483648 ∧ IsInt32 p.2.n) (tail : Str) :
    ∃ line, getline '\n' (Stream.ofStr (writeVec rationalCodec v ++ tail)) [] = (Stream.ofStr tail, line) ∧
      readVec rationalCodec line = .ok (v.map fun p => (p.1, ⟨p.2.n, 1⟩)) :=
  line_of (entries_self (c := rationalCodec) (fun q => ⟨q.n, 1⟩) (fun p hp => ⟨(h p hp).1, p.2.n, prints_rational (h p hp).2, rfl⟩)) tail

/-- C43: so a vector over `Rational` survives exactly if all its entries are integers. -/
theorem C43_vector_rational_iff {v : List (Nat × Rational)} (h : ∀ p ∈ v, p.1 < 2147483648 ∧ IsInt32 p.2.n) (tail : Str) :
    (∃ line, getline '\n' (Stream.ofStr (writeVec rationalCodec v ++ tail)) [] = (Stream.ofStr tail, line) ∧ readVec rationalCodec line = .ok v) ↔
      ∀ p ∈ v, p.2.d = 1 := by
  obtain ⟨line, h1, h2⟩ := C43_vector_rational h tail
  have key : (v.map (fun p => (p.1, (⟨p.2.n, 1⟩ : Rational))) = v) ↔ ∀ p ∈ v, p.2.d = 1 := by
    constructor
    · intro e p hp
      have := List.map_id'' (f := fun p : Nat × Rational => p) (fun _ => rfl) v
      have e' := List.map_inj_left.1 (e.trans this.symm) p hp
      rw [← e']
    · intro hd
      have : v.map (fun p => (p.1, (⟨p.2.n, 1⟩ : Rational))) = v.map id := by
        apply List.map_congr_left
        intro p hp
        have := hd p hp
        cases p with
        | mk i q => cases q with
          | mk n d => simp at this; subst this; rfl
      rw [this, List.map_id]
  rw [← key]
  constructor
  · rintro ⟨line', e1, e2⟩
    rw [h1] at e1
    rw [← (Prod.mk.inj e1).2, h2] at e2
    exact Except.ok.inj e2
  · intro e
    exact ⟨line, h1, by rw [h2, e]⟩

/-- C43: `ColumnMatrix::write` and `read` are inverse to each other for `int`; reading stops right behind the matrix. -/
theorem C43_matrix_int {M : CMat Int} (hm : M.nrow < 2147483648) (hn : M.cols.length < 2147483648)
    (h : ∀ v ∈ M.cols, ∀ p ∈ v, p.1 < 2147483648 ∧ IsInt32 p.2) (tail : Str) :
    readMat intCodec (Stream.ofStr (writeMat intCodec M ++ tail)) = .ok (M, Stream.ofStr tail) := by
  have := readMat_write (cols_self (c := intCodec) id (fun v hv p hp => ⟨(h v hv p hp).1, p.2, prints_int (h v hv p hp).2, rfl⟩)) hm hn tail
  simpa [Stream.ofStr] using this

/-- C43: the same for `ModP<int, P>`. -/
theorem C43_matrix_modp {P : Nat} (hP : P ≤ 2147483648) {M : CMat Int} (hm : M.nrow < 2147483648) (hn : M.cols.length < 2147483648)
    (h : ∀ v ∈ M.cols, ∀ p ∈ v, p.1 < 2147483648 ∧ 0 ≤ p.2 ∧ p.2 < P) (tail : Str) :
    readMat (modpCodec P) (Stream.ofStr (writeMat (modpCodec P) M ++ tail)) = .ok (M, Stream.ofStr tail) := by
  have := readMat_write (cols_self (c := modpCodec P) id (fun v hv p hp => ⟨(h v hv p hp).1, p.2,
    (prints_modp hP (h v hv p hp).2.1 (h v hv p hp).2.2).1, (prints_modp hP (h v hv p hp).2.1 (h v hv p hp).2.2).2.symm⟩)) hm hn tail
  simpa [Stream.ofStr] using this

/-- C43: for `ModP<int, 2>` the matrix read back has the same shape, the same positions and equal entries. -/
theorem C43_matrix_mod2 {M : CMat Mod2.Store} (hm : M.nrow < 2147483648) (hn : M.cols.length < 2147483648)
    (h : ∀ v ∈ M.cols, ∀ p ∈ v, p.1 < 2147483648) (tail : Str) :
    ∃ N, readMat mod2Codec (Stream.ofStr (writeMat mod2Codec M ++ tail)) = .ok (N, Stream.ofStr tail) ∧ N.nrow = M.nrow ∧
      List.Forall₂ (List.Forall₂ fun p q => q.1 = p.1 ∧ Mod2.eq q.2 p.2 = true) M.cols N.cols := by
  refine ⟨_, readMat_write (cols_self (c := mod2Codec) (fun a => mod2Codec.ofInt (Mod2.toInt a))
    (fun v hv p hp => ⟨h v hv p hp, Mod2.toInt p.2, (prints_mod2 p.2).1, rfl⟩)) hm hn tail, rfl, ?_⟩
  show List.Forall₂ _ M.cols (M.cols.map _)
  rw [List.forall₂_map_right_iff, List.forall₂_same]
  intro v hv
  rw [List.forall₂_map_right_iff, List.forall₂_same]
  exact fun p _ => ⟨rfl, (prints_mod2 p.2).2⟩

/-- C43: for `Rational` every entry `n/d` becomes `n/1`. -/
theorem C43_matrix_rational {M : CMat Rational} (hm : M.nrow < 2147483648) (hn : M.cols.length < 2147483648)
    (h : ∀ v ∈ M.cols, ∀ p ∈ v, p.1 < 2147483648 ∧ IsInt32 p.2.n) (tail : Str) :
    readMat rationalCodec (Stream.ofStr (writeMat rationalCodec M ++ tail)) =
      .ok (⟨M.nrow, M.cols.map fun v => v.map fun p => (p.1, ⟨p.2.n, 1⟩)⟩, Stream.ofStr tail) :=
  readMat_write (cols_self (c := rationalCodec) (fun q => ⟨q.n, 1⟩)
    (fun v hv p hp => ⟨(h v hv p hp).1, p.2.n, prints_rational (h v hv p hp).2, rfl⟩)) hm hn tail

/-! ### failures -/

/-- C43: `SparseVector(v.str())` throws for every vector, since `str()` ends with the end of the line. -/
theorem C43_str_throws {v : List (Nat × Int)} (h : ∀ p ∈ v, p.1 < 2147483648 ∧ IsInt32 p.2) :
    readVec intCodec (writeVec intCodec v) = .error .thrown :=
  readVec_str (entries_self (c := intCodec) id (fun p hp => ⟨(h p hp).1, p.2, prints_int (h p hp).2, rfl⟩))

/-- C43: an index from 2^31 on is written but cannot be read. -/
theorem C43_index_throws {v u : List (Nat × Int)} {p : Nat × Int} (h : ∀ q ∈ v, q.1 < 2147483648 ∧ IsInt32 q.2) (hp : 2147483648 ≤ p.1) :
    readVec intCodec (vecLine intCodec (v ++ p :: u)) = .error .thrown := by
  have hv := entries_self (c := intCodec) id (fun q hq => ⟨(h q hq).1, q.2, prints_int (h q hq).2, rfl⟩)
  have e : vecLine intCodec (v ++ p :: u) = vecLine intCodec v ++ vecLine intCodec (p :: u) := by
    clear hv h
    induction v with
    | nil => rfl
    | cons q v ih => rw [List.cons_append, vecLine_cons, vecLine_cons, ih]; simp
  have hl := length_vecLine intCodec v
  unfold readVec Stream.ofStr
  rw [e]
  obtain ⟨k, hk⟩ : ∃ k, (vecLine intCodec v ++ vecLine intCodec (p :: u)).length + 2 = (k + 1) + v.length :=
    ⟨(vecLine intCodec v ++ vecLine intCodec (p :: u)).length + 1 - v.length, by simp only [List.length_append]; omega⟩
  rw [hk, readVecLoop_line hv, vecLine_cons, readVecLoop]
  have hc : ',' ∉ entryStr intCodec p := by unfold entryStr; simp [comma_showNat, intCodec, comma_showInt]
  rw [getline_delim hc, if_neg (by simp)]
  show Except.map _ (if (entryStr intCodec p).isEmpty then _ else (readPair intCodec (entryStr intCodec p) >>= fun _ => _)) = _
  rw [if_neg (by unfold entryStr; simp)]
  have hr : readPair intCodec (entryStr intCodec p) = .error .thrown := by
    have g1 : getline ':' (Stream.ofStr (entryStr intCodec p)) [] = (⟨intCodec.out p.2, false, false⟩, showNat p.1) := getline_delim (colon_showNat _) _ _
    unfold readPair
    rw [g1]
    show (stoi (showNat p.1) >>= fun i => _) = _
    have s1 := stoi_showNat p.1 (u := []) rfl
    rw [List.append_nil, if_neg (by omega)] at s1
    rw [s1]
    rfl
  rw [hr]
  rfl

/-- C43: a matrix with 2^31 or more rows or columns is written but cannot be read, for any type of entries. -/
theorem C43_dims_throw (c : Codec V) {M : CMat V} (h : 2147483648 ≤ M.nrow ∨ 2147483648 ≤ M.cols.length) (tail : Str) :
    readMat c (Stream.ofStr (writeMat c M ++ tail)) = .error .thrown := by
  rw [writeMat_eq, List.append_assoc]
  show readMat c ⟨_, false, false⟩ = _
  rw [readMat_header, if_neg (by omega)]

/-- C43: a file cut behind the `k`-th column (here `L` are the columns before the cut, `R` the others) is read without an error, and the
missing columns are zero. -/
theorem C43_cut_at_line {m : Nat} {L R : List (SVec Int)} (hm : m < 2147483648) (hn : (L ++ R).length < 2147483648)
    (h : ∀ v ∈ L, ∀ p ∈ v, p.1 < 2147483648 ∧ IsInt32 p.2) {file : Str}
    (hf : writeMat intCodec ⟨m, L ++ R⟩ = file ++ R.flatMap (writeVec intCodec)) :
    ∃ s, readMat intCodec (Stream.ofStr file) = .ok (⟨m, L ++ R.map fun _ => []⟩, s) := by
  have hL := cols_self (c := intCodec) id (fun v hv p hp => ⟨(h v hv p hp).1, p.2, prints_int (h v hv p hp).2, rfl⟩)
  have hid : (L.map fun v => v.map fun p : Nat × Int => (p.1, id p.2)) = L := by simp
  rw [hid] at hL
  have hfile : file = header m (L ++ R).length ++ L.flatMap (writeVec intCodec) := by
    rw [writeMat_eq] at hf
    simp only [List.flatMap_append] at hf
    rw [← List.append_assoc] at hf
    exact (List.append_cancel_right hf).symm
  rw [hfile]
  by_cases hR : R = []
  · subst hR
    refine ⟨⟨[], false, false⟩, ?_⟩
    have := readMat_write (M := ⟨m, L⟩) hL hm (by simpa using hn) []
    rw [writeMat_eq] at this
    simpa [Stream.ofStr] using this
  · have hlt : L.length < (L ++ R).length := by have := List.length_pos_iff.2 hR; simp; omega
    obtain ⟨b, e⟩ := (readMat_cut (p := []) hL hm hn hlt (by simp)).1 [] rfl
    rw [List.append_nil] at e
    refine ⟨⟨[], true, b⟩, e.trans ?_⟩
    rw [List.length_append, Nat.add_sub_cancel_left, List.map_const']

/-- C43: if the file ends inside a line, with the characters `w` of that line left, the missing columns are all copies of what `w` reads as. -/
theorem C43_cut_in_line {m n : Nat} {L : List (SVec Int)} (hm : m < 2147483648) (hn : n < 2147483648) (hL : L.length < n)
    (h : ∀ v ∈ L, ∀ p ∈ v, p.1 < 2147483648 ∧ IsInt32 p.2) {w : Str} (hw : '\n' ∉ w) {x : SVec Int} (hx : readVec intCodec w = .ok x) :
    ∃ s, readMat intCodec (Stream.ofStr ("ColumnMatrix\n".toList ++ showNat m ++ [','] ++ showNat n ++ ['\n'] ++ L.flatMap (writeVec intCodec) ++ w)) =
      .ok (⟨m, L ++ List.replicate (n - L.length) x⟩, s) := by
  have hR := cols_self (c := intCodec) id (fun v hv p hp => ⟨(h v hv p hp).1, p.2, prints_int (h v hv p hp).2, rfl⟩)
  have hid : (L.map fun v => v.map fun p : Nat × Int => (p.1, id p.2)) = L := by simp
  rw [hid] at hR
  obtain ⟨b, e⟩ := (readMat_cut hR hm hn hL hw).1 x hx
  refine ⟨_, Eq.trans ?_ e⟩
  unfold header Stream.ofStr
  simp

/-- C43: `CellularMap(fname)` throws on every file that `save` has written. -/
theorem C43_cellular_map_throws {Ms : List (CMat Int)}
    (h : ∀ M ∈ Ms, M.nrow < 2147483648 ∧ M.cols.length < 2147483648 ∧ ∀ v ∈ M.cols, ∀ p ∈ v, p.1 < 2147483648 ∧ IsInt32 p.2) :
    readMap intCodec (writeMap intCodec Ms) = .error .thrown :=
  readMap_throws Ms fun M hM => ⟨(h M hM).1, (h M hM).2.1, _,
    cols_self (c := intCodec) id (fun v hv p hp => ⟨((h M hM).2.2 v hv p hp).1, p.2, prints_int ((h M hM).2.2 v hv p hp).2, rfl⟩)⟩

/-- C43: on every string and every file the readers terminate: they return a value or throw. -/
theorem C43_total (c : Codec V) (file : Str) :
    (readVec c file = .error .thrown ∨ ∃ v, readVec c file = .ok v) ∧
    (readMat c (Stream.ofStr file) = .error .thrown ∨ ∃ r, readMat c (Stream.ofStr file) = .ok r) ∧
    (readMap c file = .error .thrown ∨ ∃ Ms, readMap c file = .ok Ms) := by
  refine ⟨readVec_total c file, ?_, readMap_total c file⟩
  rcases readMat_total c (Stream.ofStr file) with h | ⟨r, h, _⟩
  · exact Or.inl h
  · exact Or.inr ⟨r, h⟩

/-- a matrix with a negative entry, a zero column and an entry with several digits -/
def textMat : CMat Int := ⟨12, [[(0, -1), (11, 2147483647)], [], [(3, 10)]]⟩

example : writeMat intCodec textMat = "ColumnMatrix\n12,3\n0:-1,11:2147483647,\n\n3:10,\n".toList := by decide +kernel

example : (readMat intCodec (Stream.ofStr (writeMat intCodec textMat ++ "rest".toList))).map (fun r => (r.1.nrow, r.1.cols, r.2)) =
    .ok (12, textMat.cols, Stream.ofStr "rest".toList) := by
  rw [C43_matrix_int (by decide) (by decide) (by unfold IsInt32; decide +kernel)]; rfl

/-- the same file cut inside the first column: no error, and all three columns are copies of the wrong column -/
example : (readMat intCodec (Stream.ofStr "ColumnMatrix\n12,3\n0:-1,11:2".toList)).map (fun r => r.1.cols) =
    .ok [[(0, -1), (11, 2)], [(0, -1), (11, 2)], [(0, -1), (11, 2)]] := by decide +kernel

/-- cut inside the line of the dimensions: a 1 x 1 matrix whose only column is read from that line -/
example : (readMat intCodec (Stream.ofStr "ColumnMatrix\n1".toList)).map (fun r => (r.1.nrow, r.1.cols)) =
    .ok (1, [[(1, 1)]]) := by decide +kernel

/-- one half is read back as one -/
example : readVec rationalCodec (vecLine rationalCodec [(4, ⟨1, 2⟩)]) = .ok [(4, ⟨1, 1⟩)] := by decide +kernel

/-- a cellular map that has been saved cannot be read; cutting off the last end of line makes it readable -/
example : (readMap intCodec (writeMap intCodec [textMat])).isOk = false ∧
    (readMap intCodec (writeMap intCodec [textMat]).dropLast).map (fun Ms => Ms.map (fun M => (M.nrow, M.cols))) = .ok [(12, textMat.cols)] := by
  decide +kernel

/-! ### simplices and complexes -/

/-- C43: the iterator overload of `write_simplex` and `read_simplex` are inverse to each other for vertices below 2^31; otherwise reading throws. -/
theorem C43_simplex (s : List Nat) (tail : Str) :
    ∃ line, getline '\n' (Stream.ofStr (writeSimplex s ++ tail)) [] = (Stream.ofStr tail, line) ∧
      ((∀ x ∈ s, x < 2147483648) → readSimplex line = .ok s) ∧ ((∃ x ∈ s, 2147483648 ≤ x) → readSimplex line = .error .thrown) := by
  refine ⟨simplexLine s, ?_, ?_, ?_⟩
  · unfold writeSimplex Stream.ofStr
    rw [List.append_assoc]
    exact getline_delim (nl_simplexLine s) _ _
  · intro h; rw [readSimplex_line, if_pos h]
  · rintro ⟨x, hx, h⟩
    rw [readSimplex_line, if_neg]
    intro h'; have := h' x hx; omega

/-- C43: what the vector overload of `write_simplex` writes cannot be read by `read_simplex`. -/
theorem C43_simplex_vector_throws {s : List Nat} (hs : s ≠ []) (tail : Str) :
    ∃ line, getline '\n' (Stream.ofStr (writeSimplexVec s ++ tail)) [] = (Stream.ofStr tail, line) ∧ readSimplex line = .error .thrown := by
  refine ⟨blankLine s, ?_, readSimplex_blank hs⟩
  unfold writeSimplexVec Stream.ofStr
  rw [List.append_assoc]
  refine getline_delim ?_ _ _
  clear hs
  induction s with
  | nil => simp
  | cons x xs ih => rw [List.flatMap_cons]; simp [nl_showNat]

open SCpx in
/-- C43: saving a complex with sorted simplices and vertices below 2^31 and loading it gives a complex with the same simplices under the
same indices; only empty dimensions at the top are dropped. -/
theorem C43_complex {X : SCpx} (h : Reachable X) (hs : ∀ s i, s ≠ [] → X.findIdx s = some i → s.Pairwise (· ≤ ·) ∧ ∀ x ∈ s, x < 2147483648) :
    ∃ file Y, saveCpx X = .ok file ∧ loadCpx file = .ok Y ∧ Reachable Y ∧ (∀ s, s ≠ [] → Y.findIdx s = X.findIdx s) ∧ Y.maxdim ≤ X.maxdim ∧
      (∀ d, d ≤ Y.maxdim → Y.numCells d = X.numCells d ∧ ∀ i n, X.numCells d = .ok n → i < n → Y.getSimplex d i = X.getSimplex d i) ∧
      ∀ d, Y.maxdim < d → d ≤ X.maxdim → X.numCells d = .ok 0 := by
  obtain ⟨cells, hI⟩ := h.inv
  obtain ⟨L, hL⟩ : ∃ L, L = listing cells X.ncells.length := ⟨_, rfl⟩
  have hmem : ∀ s ∈ L, s ≠ [] ∧ s.Pairwise (· ≤ ·) ∧ (∀ x ∈ s, x < 2147483648) ∧ s.length ≤ X.ncells.length := by
    intro s hm
    rw [hL] at hm
    obtain ⟨d, hd, hc⟩ := List.mem_flatMap.1 hm
    have hl := hI.ok.len d s hc
    have hne : s ≠ [] := by intro e; rw [e] at hl; simp at hl
    have hg := hI.trie.get hI.ok hne (by rw [hl]; exact hc)
    refine ⟨hne, (hs s _ hne hg).1, (hs s _ hne hg).2, ?_⟩
    have := List.mem_range.1 hd; omega
  obtain ⟨q1, q2⟩ := listing_prefix hI (L := L) (R := []) (by rw [hL]; simp)
  obtain ⟨Y, e, hY, hd⟩ := addAll_spec L (fun s hm => ⟨(hmem s hm).1, (hmem s hm).2.1⟩) q1 q2
  have hsv := saveCpx_spec hI
  rw [← hL] at hsv
  have hb : byDim L = cells := by rw [hL]; exact byDim_listing hI
  rw [hb] at hY
  have hYne := hY.sizes.ne
  have hXne := hI.sizes.ne
  have hle : Y.ncells.length ≤ X.ncells.length := by
    by_contra hc
    rcases hd X.ncells.length (by omega) with h0 | ⟨s, hm, hlt⟩
    · omega
    · have := (hmem s hm).2.2.2; omega
  refine ⟨_, Y, hsv, (loadCpx_file L fun s hm => (hmem s hm).2.2.1).trans e, ?_, ?_, ?_, ?_, ?_⟩
  · exact ⟨0, L.map Op.add, by simpa [Op.simplex] using fun s hm => (hmem s hm).1, e⟩
  · intro s hne
    apply Option.ext
    intro i
    exact (hY.trie s hne i).trans (hI.trie s hne i).symm
  · unfold maxdim; omega
  · intro d hd
    have h1 := (hY.dim d (by unfold maxdim at hd; omega)).nc
    have h2 := (hI.dim d (by unfold maxdim at hd; omega)).nc
    refine ⟨(rd_some h1).trans (rd_some h2).symm, ?_⟩
    intro i n hn hi
    have : X.numCells d = .ok (cells d).length := rd_some h2
    rw [this] at hn
    cases hn
    rw [Filt.getSimplex_eq hY (List.getElem?_eq_getElem hi), Filt.getSimplex_eq hI (List.getElem?_eq_getElem hi)]
  · intro d h1 h2
    have h3 := (hI.dim d (by unfold maxdim at h2; omega)).nc
    have := hY.top d (by unfold maxdim at h1; omega)
    rw [this] at h3
    exact rd_some h3

open SCpx in
/-- C43: crash points of `save`: if only the beginning of the file, with the lines of the simplices in `L`, has been written, loading it gives
a subcomplex: exactly the simplices in `L`, under their indices in the saved complex. -/
theorem C43_complex_cut {X : SCpx} (h : Reachable X) (hs : ∀ s i, s ≠ [] → X.findIdx s = some i → s.Pairwise (· ≤ ·) ∧ ∀ x ∈ s, x < 2147483648)
    {a b : Str} (hf : saveCpx X = .ok (a ++ b)) {L : List (List Nat)} (ha : a = "SimplicialComplex\n".toList ++ L.flatMap writeSimplex) :
    ∃ Y, loadCpx a = .ok Y ∧ Reachable Y ∧ ∀ s i, s ≠ [] → (Y.findIdx s = some i ↔ s ∈ L ∧ X.findIdx s = some i) := by
  obtain ⟨cells, hI⟩ := h.inv
  rw [saveCpx_spec hI] at hf
  have hf := Except.ok.inj hf
  obtain ⟨R, hR⟩ : ∃ R, listing cells X.ncells.length = L ++ R := by
    apply flatMap_prefix (b := b)
    unfold cpxFile at hf
    rw [ha, List.append_assoc] at hf
    exact List.append_cancel_left hf
  have hmem : ∀ s ∈ L, s ≠ [] ∧ s.Pairwise (· ≤ ·) ∧ (∀ x ∈ s, x < 2147483648) ∧ s ∈ cells (s.length - 1) := by
    intro s hm
    have hm' : s ∈ listing cells X.ncells.length := by rw [hR]; simp [hm]
    obtain ⟨d, hd, hc⟩ := List.mem_flatMap.1 hm'
    have hl := hI.ok.len d s hc
    have hne : s ≠ [] := by intro e; rw [e] at hl; simp at hl
    have hg := hI.trie.get hI.ok hne (by rw [hl]; exact hc)
    exact ⟨hne, (hs s _ hne hg).1, (hs s _ hne hg).2, by rw [hl]; exact hc⟩
  obtain ⟨q1, q2⟩ := listing_prefix hI hR
  obtain ⟨Y, e, hY, hd⟩ := addAll_spec L (fun s hm => ⟨(hmem s hm).1, (hmem s hm).2.1⟩) q1 q2
  refine ⟨Y, ?_, ?_, ?_⟩
  · rw [ha]; exact (loadCpx_file L fun s hm => (hmem s hm).2.2.1).trans e
  · exact ⟨0, L.map Op.add, by simpa [Op.simplex] using fun s hm => (hmem s hm).1, e⟩
  · intro s i hne
    have hpre : ∃ t, cells (s.length - 1) = byDim L (s.length - 1) ++ t := by
      refine ⟨byDim R (s.length - 1), ?_⟩
      have := congrFun (byDim_listing hI) (s.length - 1)
      rw [hR] at this
      rw [← this]
      exact List.filter_append _ _
    obtain ⟨t, ht⟩ := hpre
    have hsl : s.length = s.length - 1 + 1 := by have := List.length_pos_iff.2 hne; omega
    have e1 : Y.findIdx s = some i ↔ (byDim L (s.length - 1))[i]? = some s := hY.trie s hne i
    have e2 : X.findIdx s = some i ↔ (cells (s.length - 1))[i]? = some s := hI.trie s hne i
    rw [e1, e2, ht]
    constructor
    · intro hg
      refine ⟨(List.mem_filter.1 (List.mem_of_getElem? hg)).1, ?_⟩
      rw [List.getElem?_append_left (List.getElem?_eq_some_iff.1 hg).1, hg]
    · rintro ⟨hm, hg⟩
      have hmb : s ∈ byDim L (s.length - 1) := List.mem_filter.2 ⟨hm, by simpa using hsl⟩
      obtain ⟨j, hj⟩ := List.getElem?_of_mem hmb
      have hj' : (byDim L (s.length - 1) ++ t)[j]? = some s := by
        rw [List.getElem?_append_left (List.getElem?_eq_some_iff.1 hj).1, hj]
      have hnd := hI.ok.nodup (s.length - 1)
      rw [ht] at hnd
      obtain ⟨hi1, hi2⟩ := List.getElem?_eq_some_iff.1 hg
      obtain ⟨hj1, hj2⟩ := List.getElem?_eq_some_iff.1 hj'
      have : i = j := (hnd.getElem_inj_iff).1 (hi2.trans hj2.symm)
      rw [this]; exact hj

/-- a triangle with a larger vertex number -/
def textOps : List SCpx.Op := [.addRecursive [0, 10, 2], .add [7]]

example : ((SCpx.init 4).run textOps).bind saveCpx = .ok "SimplicialComplex\n0,\n2,\n10,\n7,\n0,2,\n0,10,\n2,10,\n0,2,10,\n".toList := by decide +kernel

/-- loading gives the same cells; the empty dimensions 3 and 4 are gone -/
example : ((((SCpx.init 4).run textOps).bind saveCpx).bind loadCpx).map (fun X => (X.ncells, X.findIdx [2, 10], X.findIdx [0, 2, 10])) =
    .ok ([4, 3, 1], some 2, some 0) := by decide +kernel

/-- a file cut inside a number: the edge 0,10 becomes the edge 0,1 that the complex does not have -/
example : (loadCpx "SimplicialComplex\n0,\n1,\n10,\n0,1".toList).map (fun X => (X.findIdx [0, 1], X.findIdx [0, 10])) = .ok (some 0, none) := by
  decide +kernel

/-- a simplex stored unsorted by `add_directed` comes back sorted -/
example : ((((SCpx.init 0).run [.add [0], .add [1], .addDirected [1, 0]]).bind saveCpx).bind loadCpx).map
    (fun X => (X.findIdx [1, 0], X.findIdx [0, 1])) = .ok (none, some 0) := by decide +kernel

end BATS

import Verif.Model.Text
import Verif.Proofs.Sublevel
import Verif.Proofs.SimplicialHist
import Mathlib.Data.List.Basic
import Mathlib.Tactic.IntervalCases
import Mathlib.Tactic.Linarith

set_option linter.unusedSectionVars false
set_option linter.unusedVariables false
set_option linter.unusedSimpArgs false

/-! # Printing and parsing -/

namespace BATS
namespace Txt

/-! ### numbers -/

theorem digitVal_digit {d : Nat} (h : d < 10) : digitVal (digit d) = some d := by
  interval_cases d <;> decide

theorem digit_props {d : Nat} (h : d < 10) : isSpace (digit d) = false ∧ digit d ≠ '-' ∧ digit d ≠ '+' ∧ digit d ≠ ',' ∧ digit d ≠ ':' ∧
    digit d ≠ '\n' := by
  interval_cases d <;> decide

theorem scan_show : ∀ (f n : Nat), n < f → ∀ u, scanDigits (showFuel f n ++ u) 0 = scanDigits u n := by
  intro f
  induction f with
  | zero => intro n h; omega
  | succ f ih =>
    intro n h u
    rw [showFuel]
    by_cases hn : n < 10
    · rw [if_pos hn, List.singleton_append, scanDigits, digitVal_digit hn]
      simp
    · rw [if_neg hn, List.append_assoc, ih (n / 10) (by omega), List.singleton_append, scanDigits, digitVal_digit (by omega)]
      show scanDigits u (10 * (n / 10) + n % 10) = _
      rw [Nat.div_add_mod]

theorem showFuel_chars : ∀ (f n : Nat), n < f → showFuel f n ≠ [] ∧ ∀ c ∈ showFuel f n, ∃ d, d < 10 ∧ c = digit d := by
  intro f
  induction f with
  | zero => intro n h; omega
  | succ f ih =>
    intro n h
    rw [showFuel]
    by_cases hn : n < 10
    · rw [if_pos hn]
      exact ⟨by simp, fun c hc => ⟨n, hn, by simpa using hc⟩⟩
    · rw [if_neg hn]
      refine ⟨by simp, ?_⟩
      intro c hc
      rcases List.mem_append.1 hc with h1 | h1
      · exact (ih (n / 10) (by omega)).2 c h1
      · exact ⟨n % 10, by omega, by simpa using h1⟩

theorem showNat_cons (n : Nat) : ∃ d w, showNat n = digit d :: w ∧ d < 10 := by
  obtain ⟨h1, h2⟩ := showFuel_chars (n + 1) n (by omega)
  unfold showNat
  cases h : showFuel (n + 1) n with
  | nil => exact absurd h h1
  | cons c w =>
    obtain ⟨d, hd, rfl⟩ := h2 c (by rw [h]; simp)
    exact ⟨d, w, rfl, hd⟩

theorem not_mem_showNat (n : Nat) {c : Char} (hc : ∀ d, d < 10 → digit d ≠ c) : c ∉ showNat n := by
  intro h
  obtain ⟨d, hd, e⟩ := (showFuel_chars (n + 1) n (by omega)).2 c h
  exact hc d hd e.symm

theorem comma_showNat (n : Nat) : ',' ∉ showNat n := not_mem_showNat n fun d hd => (digit_props hd).2.2.2.1
theorem colon_showNat (n : Nat) : ':' ∉ showNat n := not_mem_showNat n fun d hd => (digit_props hd).2.2.2.2.1
theorem nl_showNat (n : Nat) : '\n' ∉ showNat n := not_mem_showNat n fun d hd => (digit_props hd).2.2.2.2.2

theorem comma_showInt (z : Int) : ',' ∉ showInt z := by
  unfold showInt
  split
  · simp [comma_showNat]
  · exact comma_showNat _

theorem nl_showInt (z : Int) : '\n' ∉ showInt z := by
  unfold showInt
  split
  · simp [nl_showNat]
  · exact nl_showNat _

/-- the string does not begin with a digit -/
def NoDigit (u : Str) : Prop := u.head?.bind digitVal = none

theorem scan_stop {u : Str} (h : NoDigit u) (n : Nat) : scanDigits u n = n := by
  cases u with
  | nil => rfl
  | cons c u =>
    have h' : digitVal c = none := h
    rw [scanDigits, h']

theorem stoiDigits_show (neg : Bool) (n : Nat) {u : Str} (h : NoDigit u) : stoiDigits neg (showNat n ++ u) =
    if neg then (if n ≤ 2147483648 then .ok (-(n : Int)) else .error .thrown)
    else (if n < 2147483648 then .ok (n : Int) else .error .thrown) := by
  obtain ⟨d, w, hw, hd⟩ := showNat_cons n
  have h1 : ((showNat n ++ u).head?.bind digitVal).isNone = false := by
    rw [hw]
    show (digitVal (digit d)).isNone = false
    rw [digitVal_digit hd]; rfl
  have h2 : scanDigits (showNat n ++ u) 0 = n := by
    unfold showNat
    rw [scan_show _ _ (by omega), scan_stop h]
  unfold stoiDigits
  rw [h1, h2]
  simp

theorem stoi_digits {u : Str} {d : Nat} (hd : d < 10) (w : Str) (h : u = digit d :: w) : stoi u = stoiDigits false u := by
  obtain ⟨h1, h2, h3, _⟩ := digit_props hd
  have hdw : u.dropWhile isSpace = u := by
    rw [h, List.dropWhile_cons, h1]; simp
  unfold stoi
  rw [hdw, h]
  split
  · rename_i e; exact absurd (List.cons.inj e).1 h2
  · rename_i e; exact absurd (List.cons.inj e).1 h3
  · rfl

theorem stoi_showNat (n : Nat) {u : Str} (h : NoDigit u) :
    stoi (showNat n ++ u) = if n < 2147483648 then .ok (n : Int) else .error .thrown := by
  obtain ⟨d, w, hw, hd⟩ := showNat_cons n
  rw [stoi_digits hd (w ++ u) (by rw [hw]; rfl), stoiDigits_show false n h]
  simp

theorem stoi_showInt {z : Int} (h1 : -2147483648 ≤ z) (h2 : z < 2147483648) {u : Str} (h : NoDigit u) : stoi (showInt z ++ u) = .ok z := by
  unfold showInt
  by_cases hz : z < 0
  · rw [if_pos hz]
    have hdw : (('-' :: showNat z.natAbs) ++ u).dropWhile isSpace = '-' :: (showNat z.natAbs ++ u) := by
      rw [List.cons_append, List.dropWhile_cons]; rfl
    unfold stoi
    rw [hdw]
    show stoiDigits true (showNat z.natAbs ++ u) = _
    rw [stoiDigits_show true _ h, if_pos rfl, if_pos (by omega)]
    congr 1; omega
  · rw [if_neg hz, stoi_showNat _ h, if_pos (by omega)]
    congr 1; omega

theorem toSize_nat {n : Nat} (h : n < 2147483648) : toSize (n : Int) = n := by
  unfold toSize; omega

theorem stoi_nil : stoi [] = .error .thrown := rfl

/-! ### lines -/

theorem splitDelim_append {d : Char} : ∀ {w : Str}, d ∉ w → ∀ r, splitDelim d (w ++ d :: r) = some (w, r) := by
  intro w
  induction w with
  | nil => intro _ r; simp [splitDelim]
  | cons c w ih =>
    intro h r
    rw [List.cons_append, splitDelim, if_neg (by rintro rfl; simp at h), ih (by simp at h; exact h.2)]
    rfl

theorem splitDelim_none {d : Char} : ∀ {w : Str}, d ∉ w → splitDelim d w = none := by
  intro w
  induction w with
  | nil => intro _; rfl
  | cons c w ih =>
    intro h
    rw [splitDelim, if_neg (by rintro rfl; simp at h), ih (by simp at h; exact h.2)]
    rfl

theorem getline_delim {d : Char} {w : Str} (h : d ∉ w) (r line : Str) : getline d ⟨w ++ d :: r, false, false⟩ line = (⟨r, false, false⟩, w) := by
  unfold getline
  rw [if_neg (by simp)]
  show (match splitDelim d (w ++ d :: r) with | some p => _ | none => _) = _
  rw [splitDelim_append h]

theorem getline_end {d : Char} {w : Str} (h : d ∉ w) (line : Str) : getline d ⟨w, false, false⟩ line = (⟨[], true, w.isEmpty⟩, w) := by
  unfold getline
  rw [if_neg (by simp)]
  show (match splitDelim d w with | some p => _ | none => _) = _
  rw [splitDelim_none h]

theorem getline_good (d : Char) (r line line' : Str) : getline d ⟨r, false, false⟩ line = getline d ⟨r, false, false⟩ line' := by
  unfold getline
  rw [if_neg (by simp), if_neg (by simp)]

theorem getline_bad (d : Char) (r line : Str) (b : Bool) : getline d ⟨r, true, b⟩ line = (⟨r, true, true⟩, line) := by
  unfold getline
  rw [if_pos (by simp)]

/-! ### values -/

variable {V : Type}

/-- `x` is printed as a number in the range of `int`, followed by a string that `stoi` ignores -/
structure Prints (c : Codec V) (x : V) (z : Int) : Prop where
  out : ∃ u, c.out x = showInt z ++ u ∧ NoDigit u ∧ ',' ∉ u ∧ '\n' ∉ u
  lo : -2147483648 ≤ z
  hi : z < 2147483648

/-- an entry in range and what is read back -/
def EntryOK (c : Codec V) (p q : Nat × V) : Prop := p.1 < 2147483648 ∧ q.1 = p.1 ∧ ∃ z, Prints c p.2 z ∧ q.2 = c.ofInt z

/-- a printed entry without the comma -/
def entryStr (c : Codec V) (p : Nat × V) : Str := showNat p.1 ++ ':' :: c.out p.2

theorem entryStr_comma {c : Codec V} {p q : Nat × V} (h : EntryOK c p q) : ',' ∉ entryStr c p ∧ '\n' ∉ entryStr c p ∧ entryStr c p ≠ [] := by
  obtain ⟨_, _, z, ⟨⟨u, h1, _, h3, h4⟩, _, _⟩, _⟩ := h
  unfold entryStr
  rw [h1]
  refine ⟨?_, ?_, by simp⟩
  · simp [comma_showNat, comma_showInt, h3]
  · simp [nl_showNat, nl_showInt, h4]

theorem readPair_entry {c : Codec V} {p q : Nat × V} (h : EntryOK c p q) : readPair c (entryStr c p) = .ok q := by
  have hn := (entryStr_comma h).2.1
  obtain ⟨h0, h1, z, ⟨⟨u, e1, e2, e3, e4⟩, hlo, hhi⟩, h2⟩ := h
  have hn' : '\n' ∉ c.out p.2 := by
    intro hc; apply hn; unfold entryStr; simp [hc]
  have g1 : getline ':' (Stream.ofStr (entryStr c p)) [] = (⟨c.out p.2, false, false⟩, showNat p.1) := getline_delim (colon_showNat _) _ _
  unfold readPair
  rw [g1]
  show (stoi (showNat p.1) >>= fun i => stoi (getline '\n' ⟨c.out p.2, false, false⟩ (showNat p.1)).2 >>= fun v => pure (toSize i, c.ofInt v)) = _
  have s1 := stoi_showNat p.1 (u := []) rfl
  rw [List.append_nil, if_pos h0] at s1
  rw [s1, getline_end hn']
  show (stoi (c.out p.2) >>= fun v => pure (toSize (p.1 : Int), c.ofInt v)) = _
  rw [e1, stoi_showInt hlo hhi e2]
  show Except.ok (toSize (p.1 : Int), c.ofInt z) = _
  rw [toSize_nat h0, ← h1, ← h2]

theorem vecLine_cons (c : Codec V) (p : Nat × V) (ps : List (Nat × V)) : vecLine c (p :: ps) = entryStr c p ++ ',' :: vecLine c ps := by
  rw [vecLine]; unfold entryStr; simp

theorem readVecLoop_good (c : Codec V) (fuel : Nat) (r tok tok' : Str) :
    readVecLoop c fuel ⟨r, false, false⟩ tok = readVecLoop c fuel ⟨r, false, false⟩ tok' := by
  cases fuel with
  | zero => rfl
  | succ f => rw [readVecLoop, readVecLoop, getline_good ',' r tok tok']

theorem readVecLoop_line {c : Codec V} {tail : Str} : ∀ {v w : List (Nat × V)}, List.Forall₂ (EntryOK c) v w → ∀ (fuel : Nat) (tok : Str),
    readVecLoop c (fuel + v.length) ⟨vecLine c v ++ tail, false, false⟩ tok =
      (readVecLoop c fuel ⟨tail, false, false⟩ []).map (fun r => w ++ r) := by
  intro v w h
  induction h with
  | nil =>
    intro fuel tok
    show readVecLoop c fuel ⟨tail, false, false⟩ tok = _
    rw [readVecLoop_good c fuel tail tok []]
    cases readVecLoop c fuel ⟨tail, false, false⟩ [] <;> rfl
  | @cons p q ps qs hp hps ih =>
    intro fuel tok
    obtain ⟨h1, h2, h3⟩ := entryStr_comma hp
    rw [vecLine_cons, List.append_assoc, List.cons_append, List.length_cons, ← Nat.add_assoc, readVecLoop, getline_delim h1, if_neg (by simp)]
    show (if (entryStr c p).isEmpty then _ else _) = _
    rw [if_neg (by rw [List.isEmpty_iff]; exact h3)]
    show (readPair c (entryStr c p) >>= fun p' => readVecLoop c (fuel + ps.length) ⟨vecLine c ps ++ tail, false, false⟩ (entryStr c p) >>= fun r =>
      Except.ok (p' :: r)) = _
    rw [readPair_entry hp, ih]
    show ((readVecLoop c fuel ⟨tail, false, false⟩ []).map (fun r => qs ++ r) >>= fun r => Except.ok (q :: r)) = _
    cases readVecLoop c fuel ⟨tail, false, false⟩ [] <;> rfl

theorem length_vecLine (c : Codec V) : ∀ v, v.length ≤ (vecLine c v).length := by
  intro v
  induction v with
  | nil => simp
  | cons p ps ih => rw [vecLine_cons]; simp; omega

theorem readVecLoop_nil (c : Codec V) (fuel : Nat) (tok : Str) : readVecLoop c (fuel + 1) ⟨[], false, false⟩ tok = .ok [] := by
  rw [readVecLoop, getline_end (by simp)]
  rfl

theorem readVec_line {c : Codec V} {v w : List (Nat × V)} (h : List.Forall₂ (EntryOK c) v w) : readVec c (vecLine c v) = .ok w := by
  unfold readVec Stream.ofStr
  have hl := length_vecLine c v
  rw [show (vecLine c v).length + 2 = ((vecLine c v).length - v.length + 1) + 1 + v.length by omega]
  have := readVecLoop_line (tail := []) h ((vecLine c v).length - v.length + 1 + 1) []
  rw [List.append_nil] at this
  rw [this, readVecLoop_nil]
  simp [Except.map]

theorem readVec_str {c : Codec V} {v w : List (Nat × V)} (h : List.Forall₂ (EntryOK c) v w) : readVec c (writeVec c v) = .error .thrown := by
  unfold readVec Stream.ofStr writeVec
  have hl := length_vecLine c v
  rw [show (vecLine c v ++ ['\n']).length + 2 = ((vecLine c v).length - v.length + 2) + 1 + v.length by simp; omega]
  rw [readVecLoop_line h, readVecLoop, getline_end (by simp)]
  show Except.map _ (if (false : Bool) = true then _ else if (false : Bool) = true then _ else (readPair c ['\n'] >>= fun p => _)) = _
  rw [if_neg (by simp), if_neg (by simp)]
  rfl

theorem nl_vecLine {c : Codec V} {v w : List (Nat × V)} (h : List.Forall₂ (EntryOK c) v w) : '\n' ∉ vecLine c v := by
  induction h with
  | nil => simp [vecLine]
  | cons hp _ ih => rw [vecLine_cons]; simp [(entryStr_comma hp).2.1, ih]

/-! ### matrices -/

def ColsRead (c : Codec V) (v w : List (List (Nat × V))) : Prop := List.Forall₂ (List.Forall₂ (EntryOK c)) v w

theorem readCols_good (c : Codec V) (n : Nat) (r line : Str) : readCols c (n + 1) ⟨r, false, false⟩ line = readCols c (n + 1) ⟨r, false, false⟩ [] := by
  rw [readCols, readCols, getline_good '\n' r line []]

theorem readCols_bad (c : Codec V) {w : Str} {v : SVec V} (hv : readVec c w = .ok v) (r : Str) : ∀ (n : Nat) (b : Bool),
    ∃ b', readCols c n ⟨r, true, b⟩ w = .ok (List.replicate n v, ⟨r, true, b'⟩) := by
  intro n
  induction n with
  | zero => intro b; exact ⟨b, rfl⟩
  | succ n ih =>
    intro b
    obtain ⟨b', e⟩ := ih true
    refine ⟨b', ?_⟩
    rw [readCols, getline_bad]
    show (readVec c w >>= fun v => readCols c n ⟨r, true, true⟩ w >>= fun r => Except.ok (v :: r.1, r.2)) = _
    rw [hv]
    show (readCols c n ⟨r, true, true⟩ w >>= fun r => Except.ok (v :: r.1, r.2)) = _
    rw [e]
    rfl

/-- the columns up to the end of the file, which is reached in a line `w` without an end -/
theorem readCols_end (c : Codec V) {w : Str} (hw : '\n' ∉ w) (n : Nat) (line : Str) :
    (∀ v, readVec c w = .ok v → ∃ b, readCols c (n + 1) ⟨w, false, false⟩ line = .ok (List.replicate (n + 1) v, ⟨[], true, b⟩)) ∧
    (∀ e, readVec c w = .error e → readCols c (n + 1) ⟨w, false, false⟩ line = .error e) := by
  constructor
  · intro v hv
    obtain ⟨b, e⟩ := readCols_bad c hv [] n w.isEmpty
    refine ⟨b, ?_⟩
    rw [readCols, getline_end hw]
    show (readVec c w >>= fun v => readCols c n ⟨[], true, w.isEmpty⟩ w >>= fun r => Except.ok (v :: r.1, r.2)) = _
    rw [hv]
    show (readCols c n ⟨[], true, w.isEmpty⟩ w >>= fun r => Except.ok (v :: r.1, r.2)) = _
    rw [e]
    rfl
  · intro e hv
    rw [readCols, getline_end hw]
    show (readVec c w >>= fun v => readCols c n ⟨[], true, w.isEmpty⟩ w >>= fun r => Except.ok (v :: r.1, r.2)) = _
    rw [hv]
    rfl

theorem readCols_lines {c : Codec V} {tail : Str} : ∀ {v w : List (List (Nat × V))}, ColsRead c v w → ∀ (n : Nat) (line : Str), 0 < n →
    readCols c (v.length + n) ⟨v.flatMap (writeVec c) ++ tail, false, false⟩ line =
      (readCols c n ⟨tail, false, false⟩ []).map (fun r => (w ++ r.1, r.2)) := by
  intro v w h
  induction h with
  | nil =>
    intro n line hn
    obtain ⟨m, rfl⟩ : ∃ m, n = m + 1 := ⟨n - 1, by omega⟩
    show readCols c (0 + (m + 1)) ⟨tail, false, false⟩ line = _
    rw [Nat.zero_add, readCols_good c m tail line]
    cases readCols c (m + 1) ⟨tail, false, false⟩ [] <;> rfl
  | @cons p q ps qs hp hps ih =>
    intro n line hn
    rw [List.flatMap_cons, List.length_cons, show ps.length + 1 + n = (ps.length + n) + 1 by omega, readCols]
    have e : writeVec c p ++ ps.flatMap (writeVec c) ++ tail = vecLine c p ++ '\n' :: (ps.flatMap (writeVec c) ++ tail) := by
      unfold writeVec; simp
    rw [e, getline_delim (nl_vecLine hp)]
    show (readVec c (vecLine c p) >>= fun v => readCols c (ps.length + n) ⟨ps.flatMap (writeVec c) ++ tail, false, false⟩ (vecLine c p) >>= fun r =>
      Except.ok (v :: r.1, r.2)) = _
    rw [readVec_line hp, ih n _ hn]
    show ((readCols c n ⟨tail, false, false⟩ []).map (fun r => (qs ++ r.1, r.2)) >>= fun r => Except.ok (q :: r.1, r.2)) = _
    cases readCols c n ⟨tail, false, false⟩ [] <;> rfl

theorem readCols_all {c : Codec V} {tail : Str} : ∀ {v w : List (List (Nat × V))}, ColsRead c v w → ∀ (line : Str),
    readCols c v.length ⟨v.flatMap (writeVec c) ++ tail, false, false⟩ line = .ok (w, ⟨tail, false, false⟩) := by
  intro v w h
  induction h with
  | nil => intro line; rfl
  | @cons p q ps qs hp hps ih =>
    intro line
    rw [List.flatMap_cons, List.length_cons, readCols]
    have e : writeVec c p ++ ps.flatMap (writeVec c) ++ tail = vecLine c p ++ '\n' :: (ps.flatMap (writeVec c) ++ tail) := by
      unfold writeVec; simp
    rw [e, getline_delim (nl_vecLine hp)]
    show (readVec c (vecLine c p) >>= fun v => readCols c ps.length ⟨ps.flatMap (writeVec c) ++ tail, false, false⟩ (vecLine c p) >>= fun r =>
      Except.ok (v :: r.1, r.2)) = _
    rw [readVec_line hp, ih]
    rfl

/-- the two lines in front of the columns -/
def header (m n : Nat) : Str := "ColumnMatrix\n".toList ++ (showNat m ++ ',' :: (showNat n ++ ['\n']))

theorem writeMat_eq (c : Codec V) (M : CMat V) : writeMat c M = header M.nrow M.cols.length ++ M.cols.flatMap (writeVec c) := by
  unfold writeMat header; simp

theorem readMat_header (c : Codec V) (m n : Nat) (tail : Str) : readMat c ⟨header m n ++ tail, false, false⟩ =
    if m < 2147483648 ∧ n < 2147483648 then
      (readCols c n ⟨tail, false, false⟩ (showNat m ++ ',' :: showNat n)).map (fun r => (⟨m, r.1⟩, r.2))
    else .error .thrown := by
  have e : header m n ++ tail = "ColumnMatrix".toList ++ '\n' :: ((showNat m ++ ',' :: showNat n) ++ '\n' :: tail) := by
    unfold header
    show "ColumnMatrix".toList ++ '\n' :: ((showNat m ++ ',' :: (showNat n ++ ['\n'])) ++ tail) = _
    simp
  have hnl : '\n' ∉ showNat m ++ ',' :: showNat n := by simp [nl_showNat]
  unfold readMat
  rw [e, getline_delim (by decide)]
  show readDims c (getline '\n' ⟨(showNat m ++ ',' :: showNat n) ++ '\n' :: tail, false, false⟩ "ColumnMatrix".toList).1
    (getline '\n' ⟨(showNat m ++ ',' :: showNat n) ++ '\n' :: tail, false, false⟩ "ColumnMatrix".toList).2 = _
  rw [getline_delim hnl]
  unfold readDims Stream.ofStr
  show (stoi (getline ',' ⟨showNat m ++ ',' :: showNat n, false, false⟩ []).2 >>= fun m' =>
    stoi (getline '\n' (getline ',' ⟨showNat m ++ ',' :: showNat n, false, false⟩ []).1 (getline ',' ⟨showNat m ++ ',' :: showNat n, false, false⟩ []).2).2
      >>= fun n' => _) = _
  rw [getline_delim (comma_showNat m)]
  show (stoi (showNat m) >>= fun m' => stoi (getline '\n' ⟨showNat n, false, false⟩ (showNat m)).2 >>= fun n' => _) = _
  rw [getline_end (nl_showNat n)]
  show (stoi (showNat m) >>= fun m' => stoi (showNat n) >>= fun n' => if n' < 0 then Except.error Err.thrown else
    (readCols c n'.toNat ⟨tail, false, false⟩ (showNat m ++ ',' :: showNat n) >>= fun r => Except.ok ((⟨toSize m', r.1⟩ : CMat V), r.2))) = _
  have s1 := stoi_showNat m (u := []) rfl
  have s2 := stoi_showNat n (u := []) rfl
  rw [List.append_nil] at s1 s2
  rw [s1, s2]
  by_cases hm : m < 2147483648
  · rw [if_pos hm]
    by_cases hn : n < 2147483648
    · rw [if_pos hn, if_pos ⟨hm, hn⟩]
      show (if (n : Int) < 0 then Except.error Err.thrown else
        (readCols c (n : Int).toNat ⟨tail, false, false⟩ (showNat m ++ ',' :: showNat n) >>= fun r => Except.ok ((⟨toSize (m : Int), r.1⟩ : CMat V), r.2))) = _
      rw [if_neg (by omega), Int.toNat_natCast, toSize_nat hm]
      cases readCols c n ⟨tail, false, false⟩ (showNat m ++ ',' :: showNat n) <;> rfl
    · rw [if_neg hn, if_neg (fun h => hn h.2)]
      rfl
  · rw [if_neg (c := m < 2147483648 ∧ n < 2147483648) (fun h => hm h.1), if_neg hm]
    rfl

theorem readMat_write {c : Codec V} {M : CMat V} {w : List (SVec V)} (h : ColsRead c M.cols w) (hm : M.nrow < 2147483648)
    (hn : M.cols.length < 2147483648) (tail : Str) :
    readMat c ⟨writeMat c M ++ tail, false, false⟩ = .ok (⟨M.nrow, w⟩, ⟨tail, false, false⟩) := by
  rw [writeMat_eq, List.append_assoc, readMat_header, if_pos ⟨hm, hn⟩, readCols_all h]
  rfl

theorem readMat_cut {c : Codec V} {m n : Nat} {v w : List (SVec V)} (h : ColsRead c v w) (hm : m < 2147483648)
    (hn : n < 2147483648) (hv : v.length < n) {p : Str} (hp : '\n' ∉ p) :
    (∀ x, readVec c p = .ok x → ∃ b, readMat c ⟨header m n ++ (v.flatMap (writeVec c) ++ p), false, false⟩ =
      .ok (⟨m, w ++ List.replicate (n - v.length) x⟩, ⟨[], true, b⟩)) ∧
    (∀ e, readVec c p = .error e → readMat c ⟨header m n ++ (v.flatMap (writeVec c) ++ p), false, false⟩ = .error e) := by
  obtain ⟨k, hk⟩ : ∃ k, n = v.length + (k + 1) := ⟨n - v.length - 1, by omega⟩
  rw [readMat_header, if_pos ⟨hm, hn⟩]
  have e := readCols_lines (tail := p) h (k + 1) (showNat m ++ ',' :: showNat n) (by omega)
  rw [← hk] at e
  rw [e]
  obtain ⟨h1, h2⟩ := readCols_end c hp k []
  rw [show n - v.length = k + 1 by omega]
  constructor
  · intro x hx
    obtain ⟨b, e'⟩ := h1 x hx
    refine ⟨b, ?_⟩
    rw [e']
    rfl
  · intro x hx
    rw [h2 x hx]
    rfl

/-! ### cellular maps -/

theorem length_writeMat (c : Codec V) (M : CMat V) : 1 ≤ (writeMat c M).length := by
  unfold writeMat; simp

theorem readMapLoop_throws {c : Codec V} : ∀ (Ms : List (CMat V)), (∀ M ∈ Ms, M.nrow < 2147483648 ∧ M.cols.length < 2147483648 ∧ ∃ w, ColsRead c M.cols w) →
    ∀ fuel, Ms.length < fuel → readMapLoop c fuel ⟨Ms.flatMap (writeMat c), false, false⟩ = .error .thrown := by
  intro Ms
  induction Ms with
  | nil =>
    intro _ fuel hf
    obtain ⟨f, rfl⟩ : ∃ f, fuel = f + 1 := ⟨fuel - 1, by simp at hf; omega⟩
    rfl
  | cons M Ms ih =>
    intro h fuel hf
    obtain ⟨f, rfl⟩ : ∃ f, fuel = f + 1 := ⟨fuel - 1, by omega⟩
    obtain ⟨h1, h2, w, h3⟩ := h M (by simp)
    rw [readMapLoop, if_neg (by simp), List.flatMap_cons]
    show (readMat c ⟨writeMat c M ++ Ms.flatMap (writeMat c), false, false⟩ >>= fun r => readMapLoop c f r.2 >>= fun Ns => Except.ok (r.1 :: Ns)) = _
    rw [readMat_write h3 h1 h2]
    show (readMapLoop c f ⟨Ms.flatMap (writeMat c), false, false⟩ >>= fun Ns => Except.ok (_ :: Ns)) = _
    rw [ih (fun M' hM' => h M' (by simp [hM'])) f (by simp at hf; omega)]
    rfl

theorem readMap_throws {c : Codec V} (Ms : List (CMat V))
    (h : ∀ M ∈ Ms, M.nrow < 2147483648 ∧ M.cols.length < 2147483648 ∧ ∃ w, ColsRead c M.cols w) :
    readMap c (writeMap c Ms) = .error .thrown := by
  have e : writeMap c Ms = "CellularMap".toList ++ '\n' :: Ms.flatMap (writeMat c) := rfl
  have hl : Ms.length ≤ (Ms.flatMap (writeMat c)).length := by
    clear h e
    induction Ms with
    | nil => simp
    | cons M Ms ih => have := length_writeMat c M; simp only [List.flatMap_cons, List.length_cons, List.length_append]; omega
  unfold readMap Stream.ofStr
  rw [e, getline_delim (by decide)]
  exact readMapLoop_throws Ms h _ (by simp only [List.length_append, List.length_cons]; omega)

/-! ### simplices -/

theorem simplexLine_cons (x : Nat) (xs : List Nat) : simplexLine (x :: xs) = showNat x ++ ',' :: simplexLine xs := rfl

theorem nl_simplexLine : ∀ s, '\n' ∉ simplexLine s := by
  intro s
  induction s with
  | nil => simp [simplexLine]
  | cons x xs ih => rw [simplexLine_cons]; simp [nl_showNat, ih]

theorem length_simplexLine : ∀ s, s.length ≤ (simplexLine s).length := by
  intro s
  induction s with
  | nil => simp
  | cons x xs ih => rw [simplexLine_cons]; simp; omega

theorem readSimplexLoop_line : ∀ (s : List Nat), ∀ (fuel : Nat) (tok : Str), s.length < fuel →
    readSimplexLoop fuel ⟨simplexLine s, false, false⟩ tok = if ∀ x ∈ s, x < 2147483648 then .ok s else .error .thrown := by
  intro s
  induction s with
  | nil =>
    intro fuel tok hf
    obtain ⟨f, rfl⟩ : ∃ f, fuel = f + 1 := ⟨fuel - 1, by simp at hf; omega⟩
    rw [simplexLine, readSimplexLoop, getline_end (by simp)]
    simp
  | cons x xs ih =>
    intro fuel tok hf
    obtain ⟨f, rfl⟩ : ∃ f, fuel = f + 1 := ⟨fuel - 1, by omega⟩
    obtain ⟨d, w, hw, hd⟩ := showNat_cons x
    rw [simplexLine_cons, readSimplexLoop, getline_delim (comma_showNat x), if_neg (by simp)]
    show (if (showNat x).isEmpty then _ else _) = _
    rw [if_neg (by rw [hw]; simp)]
    show (stoi (showNat x) >>= fun x' => readSimplexLoop f ⟨simplexLine xs, false, false⟩ (showNat x) >>= fun r => Except.ok (toSize x' :: r)) = _
    have s1 := stoi_showNat x (u := []) rfl
    rw [List.append_nil] at s1
    rw [s1, ih f _ (by simp at hf; omega)]
    by_cases hx : x < 2147483648
    · rw [if_pos hx]
      by_cases hxs : ∀ y ∈ xs, y < 2147483648
      · rw [if_pos hxs, if_pos (by simp [hx]; exact hxs)]
        show Except.ok (toSize (x : Int) :: xs) = _
        rw [toSize_nat hx]
      · rw [if_neg hxs, if_neg (by intro h; exact hxs fun y hy => h y (by simp [hy]))]
        rfl
    · rw [if_neg (c := ∀ y ∈ x :: xs, _) (by intro h; exact hx (h x (by simp))), if_neg hx]
      rfl

theorem readSimplex_line (s : List Nat) : readSimplex (simplexLine s) = if ∀ x ∈ s, x < 2147483648 then .ok s else .error .thrown := by
  unfold readSimplex Stream.ofStr
  have := length_simplexLine s
  exact readSimplexLoop_line s _ _ (by omega)

/-- a line with a blank behind every comma -/
def blankLine (s : List Nat) : Str := s.flatMap (fun x => showNat x ++ [',', ' '])

theorem readSimplexLoop_blank : ∀ (s : List Nat), ∀ (fuel : Nat) (tok : Str), s.length + 1 < fuel →
    readSimplexLoop fuel ⟨' ' :: blankLine s, false, false⟩ tok = .error .thrown := by
  intro s
  induction s with
  | nil =>
    intro fuel tok hf
    obtain ⟨f, rfl⟩ : ∃ f, fuel = f + 1 := ⟨fuel - 1, by simp at hf; omega⟩
    show readSimplexLoop (f + 1) ⟨[' '], false, false⟩ tok = _
    rw [readSimplexLoop, getline_end (by simp)]
    rfl
  | cons x xs ih =>
    intro fuel tok hf
    obtain ⟨f, rfl⟩ : ∃ f, fuel = f + 1 := ⟨fuel - 1, by omega⟩
    have e : ' ' :: blankLine (x :: xs) = (' ' :: showNat x) ++ ',' :: (' ' :: blankLine xs) := by
      unfold blankLine; simp
    rw [e, readSimplexLoop, getline_delim (by simp [comma_showNat]), if_neg (by simp)]
    show (stoi (' ' :: showNat x) >>= fun x' => readSimplexLoop f ⟨' ' :: blankLine xs, false, false⟩ (' ' :: showNat x) >>= fun r => Except.ok (toSize x' :: r)) = _
    rw [ih f _ (by simp at hf; omega)]
    cases h : stoi (' ' :: showNat x) with
    | ok z => rfl
    | error z =>
      have hs : stoi (' ' :: showNat x) = stoi (showNat x) := by
        obtain ⟨d, w, hw, hd⟩ := showNat_cons x
        unfold stoi
        rw [List.dropWhile_cons]
        rfl
      have s1 := stoi_showNat x (u := []) rfl
      rw [List.append_nil] at s1
      rw [hs, s1] at h
      split at h
      · cases h
      · cases h; rfl

theorem readSimplex_blank {s : List Nat} (hs : s ≠ []) : readSimplex (blankLine s) = .error .thrown := by
  cases s with
  | nil => exact absurd rfl hs
  | cons x xs =>
    have e : blankLine (x :: xs) = showNat x ++ ',' :: (' ' :: blankLine xs) := by unfold blankLine; simp
    obtain ⟨d, w, hw, hd⟩ := showNat_cons x
    have hl : xs.length ≤ (blankLine xs).length := by
      unfold blankLine
      induction xs with
      | nil => simp
      | cons y ys ih => simp at ih ⊢; omega
    unfold readSimplex Stream.ofStr
    rw [e, readSimplexLoop, getline_delim (comma_showNat x), if_neg (by simp)]
    show (if (showNat x).isEmpty then _ else _) = _
    rw [if_neg (by rw [hw]; simp)]
    show (stoi (showNat x) >>= fun x' => readSimplexLoop ((showNat x ++ ',' :: (' ' :: blankLine xs)).length + 1) ⟨' ' :: blankLine xs, false, false⟩ (showNat x) >>= fun r =>
      Except.ok (toSize x' :: r)) = _
    rw [readSimplexLoop_blank xs _ _ (by simp only [List.length_append, List.length_cons]; omega)]
    have s1 := stoi_showNat x (u := []) rfl
    rw [List.append_nil] at s1
    rw [s1]
    split <;> rfl

/-! ### complexes -/

open SCpx

/-- `add` for every simplex of a list -/
def addAll (X : SCpx) (L : List (List Nat)) : Res SCpx := X.run (L.map Op.add)

theorem loadLoop_good (fuel : Nat) (r line line' : Str) (X : SCpx) : loadLoop fuel ⟨r, false, false⟩ line X = loadLoop fuel ⟨r, false, false⟩ line' X := by
  cases fuel with
  | zero => rfl
  | succ f => rw [loadLoop, loadLoop, getline_good '\n' r line line']

theorem loadLoop_lines {tail : Str} : ∀ (L : List (List Nat)), (∀ s ∈ L, ∀ x ∈ s, x < 2147483648) → ∀ (fuel : Nat) (line : Str) (X : SCpx),
    loadLoop (fuel + L.length) ⟨L.flatMap writeSimplex ++ tail, false, false⟩ line X =
      (addAll X L >>= fun Y => loadLoop fuel ⟨tail, false, false⟩ [] Y) := by
  intro L
  induction L with
  | nil => intro _ fuel line X; exact loadLoop_good fuel tail line [] X
  | cons s L ih =>
    intro h fuel line X
    have e : writeSimplex s ++ L.flatMap writeSimplex ++ tail = simplexLine s ++ '\n' :: (L.flatMap writeSimplex ++ tail) := by
      unfold writeSimplex; simp
    rw [List.flatMap_cons, e, List.length_cons, ← Nat.add_assoc, loadLoop, getline_delim (nl_simplexLine s), if_neg (by simp)]
    show (readSimplex (simplexLine s) >>= fun spx => X.add spx >>= fun r =>
      loadLoop (fuel + L.length) ⟨L.flatMap writeSimplex ++ tail, false, false⟩ (simplexLine s) r.1) = _
    rw [readSimplex_line, if_pos (h s (by simp))]
    show (X.add s >>= fun r => loadLoop (fuel + L.length) ⟨L.flatMap writeSimplex ++ tail, false, false⟩ (simplexLine s) r.1) = _
    unfold addAll
    rw [List.map_cons, SCpx.run]
    show _ = ((X.add s >>= fun r => Except.ok r.1) >>= fun Y => Y.run (L.map Op.add)) >>= fun Y => loadLoop fuel ⟨tail, false, false⟩ [] Y
    cases X.add s with
    | error e => rfl
    | ok r =>
      show loadLoop (fuel + L.length) ⟨L.flatMap writeSimplex ++ tail, false, false⟩ (simplexLine s) r.1 = _
      rw [ih (fun t ht => h t (by simp [ht]))]
      rfl

theorem length_lines : ∀ (L : List (List Nat)), L.length ≤ (L.flatMap writeSimplex).length := by
  intro L
  induction L with
  | nil => simp
  | cons s L ih =>
    have h1 : 1 ≤ (writeSimplex s).length := by unfold writeSimplex; simp
    simp only [List.flatMap_cons, List.length_cons, List.length_append]; omega

/-- the file with the given simplices -/
def cpxFile (L : List (List Nat)) : Str := "SimplicialComplex\n".toList ++ L.flatMap writeSimplex

theorem loadCpx_file (L : List (List Nat)) (h : ∀ s ∈ L, ∀ x ∈ s, x < 2147483648) : loadCpx (cpxFile L) = addAll (SCpx.init 0) L := by
  have e : cpxFile L = "SimplicialComplex".toList ++ '\n' :: L.flatMap writeSimplex := rfl
  have hl := length_lines L
  unfold loadCpx Stream.ofStr
  rw [e, getline_delim (by decide)]
  show loadLoop _ ⟨L.flatMap writeSimplex, false, false⟩ _ _ = _
  obtain ⟨k, hk⟩ : ∃ k, ("SimplicialComplex".toList ++ '\n' :: L.flatMap writeSimplex).length + 2 = (k + 1) + L.length :=
    ⟨("SimplicialComplex".toList ++ '\n' :: L.flatMap writeSimplex).length + 1 - L.length, by simp only [List.length_append, List.length_cons]; omega⟩
  rw [hk]
  have := loadLoop_lines (tail := []) L h (k + 1) "SimplicialComplex".toList (SCpx.init 0)
  rw [List.append_nil] at this
  rw [this]
  have hz : ∀ Y, loadLoop (k + 1) ⟨[], false, false⟩ [] Y = .ok Y := by
    intro Y; rw [loadLoop, getline_end (by simp)]; rfl
  cases addAll (SCpx.init 0) L with
  | error e => rfl
  | ok Y => exact hz Y

/-- the simplices of dimension `d` in a list -/
def byDim (L : List (List Nat)) : Cells := fun d => L.filter (fun s => s.length = d + 1)

theorem byDim_append (L : List (List Nat)) {s : List Nat} {d : Nat} (hl : s.length = d + 1) : byDim (L ++ [s]) = push (byDim L) d s := by
  funext e
  by_cases he : e = d
  · subst he; rw [push_same]; unfold byDim; rw [List.filter_append]; simp [hl]
  · rw [push_ne _ _ he]; unfold byDim; rw [List.filter_append]; simp [hl]; omega

theorem run_append' : ∀ (a b : List Op) (X : SCpx), X.run (a ++ b) = (X.run a >>= fun Y => Y.run b) := by
  intro a
  induction a with
  | nil => intro b X; rfl
  | cons o a ih =>
    intro b X
    rw [List.cons_append, SCpx.run, SCpx.run]
    cases X.step o with
    | error e => rfl
    | ok Y => exact ih b Y

/-- adding a list of sorted simplices in which faces come first -/
theorem addAll_spec : ∀ (L : List (List Nat)), (∀ s ∈ L, s ≠ [] ∧ s.Pairwise (· ≤ ·)) → L.Nodup →
    (∀ L1 s L2, L = L1 ++ s :: L2 → 2 ≤ s.length → ∀ k, k < s.length → s.eraseIdx k ∈ L1) →
    ∃ Y, addAll (SCpx.init 0) L = .ok Y ∧ Inv Y (byDim L) ∧ ∀ d, d < Y.ncells.length → d = 0 ∨ ∃ s ∈ L, d < s.length := by
  intro L
  induction L using List.reverseRecOn with
  | nil =>
    intro _ _ _
    refine ⟨SCpx.init 0, rfl, (init_inv 0).1, ?_⟩
    intro d hd; left; have := (init_inv 0).2; omega
  | append_singleton L s ih =>
    intro h1 h2 h3
    obtain ⟨Y, e, hI, hd⟩ := ih (fun t ht => h1 t (by simp [ht])) (h2.sublist (by simp)) (by
      intro L1 t L2 e; exact h3 L1 t (L2 ++ [s]) (by rw [e]; simp))
    obtain ⟨hs, hsort⟩ := h1 s (by simp)
    obtain ⟨d, hl⟩ : ∃ d, s.length = d + 1 := ⟨s.length - 1, by have := List.length_pos_iff.2 hs; omega⟩
    have hns : s ∉ byDim L d := by
      intro hm
      have := (List.mem_filter.1 hm).1
      exact (List.nodup_append.1 h2).2.2 s this s (by simp) rfl
    have hfc : FacesIn (byDim L) d s := by
      intro e he k hk
      have := h3 L s [] rfl (by omega) k (by omega)
      refine List.mem_filter.2 ⟨this, ?_⟩
      rw [List.length_eraseIdx_of_lt (by omega)]
      simp; omega
    obtain ⟨Z, cells', r, q1, q2, q3, q4⟩ := addDirected_spec hI hl
    have hsv : SCpx.sortV s = s := hsort.insertionSort_eq
    refine ⟨Z, ?_, ?_, ?_⟩
    · unfold addAll at e ⊢
      rw [List.map_append, run_append', e]
      show ((Y.add s >>= fun r => Except.ok r.1) >>= fun Y => Except.ok Y) = _
      unfold SCpx.add
      rw [hsv, q1]
      rfl
    · rcases q4 with ⟨a, _⟩ | ⟨_, _, c, _⟩ | ⟨_, b, _⟩
      · exact absurd a hns
      · rw [byDim_append L hl, ← c]; exact q2
      · exact absurd hfc b
    · intro e he
      rw [q3] at he
      by_cases hc : e < Y.ncells.length
      · rcases hd e hc with h | ⟨t, ht, h⟩
        · exact Or.inl h
        · exact Or.inr ⟨t, by simp [ht], h⟩
      · exact Or.inr ⟨s, by simp, by omega⟩

/-- the simplices in the order of the file -/
def listing (cells : Cells) (n : Nat) : List (List Nat) := (List.range n).flatMap cells

theorem saveRow_spec {X : SCpx} {cells : Cells} (h : Inv X cells) (d : Nat) : ∀ (n i : Nat), i + n = (cells d).length →
    saveRow X d n i = .ok (((cells d).drop i).flatMap writeSimplex) := by
  intro n
  induction n with
  | zero => intro i hi; rw [saveRow, List.drop_of_length_le (by omega)]; rfl
  | succ n ih =>
    intro i hi
    have hlt : i < (cells d).length := by omega
    rw [saveRow, Filt.getSimplex_eq h (List.getElem?_eq_getElem hlt)]
    show (saveRow X d n (i + 1) >>= fun r => Except.ok (writeSimplex (cells d)[i] ++ r)) = _
    rw [ih (i + 1) (by omega), List.drop_eq_getElem_cons hlt, List.flatMap_cons]
    rfl

theorem saveLoop_spec {X : SCpx} {cells : Cells} (h : Inv X cells) : ∀ (k d : Nat), d + k = X.ncells.length →
    saveLoop X k d = .ok (((List.range' d k).flatMap cells).flatMap writeSimplex) := by
  intro k
  induction k with
  | zero => intro d _; rfl
  | succ k ih =>
    intro d hd
    have hnc := (h.dim d (by omega)).nc
    have e : X.numCells d = .ok (cells d).length := rd_some hnc
    rw [saveLoop, e]
    show (saveRow X d (cells d).length 0 >>= fun a => saveLoop X k (d + 1) >>= fun b => Except.ok (a ++ b)) = _
    rw [saveRow_spec h d _ 0 (by omega), ih (d + 1) (by omega), List.drop_zero, List.range'_succ, List.flatMap_cons, List.flatMap_append]
    rfl

theorem saveCpx_spec {X : SCpx} {cells : Cells} (h : Inv X cells) : saveCpx X = .ok (cpxFile (listing cells X.ncells.length)) := by
  have hne := h.sizes.ne
  unfold saveCpx
  rw [saveLoop_spec h _ 0 (by unfold maxdim; omega), show X.maxdim + 1 = X.ncells.length by unfold maxdim; omega]
  show Except.ok _ = _
  unfold cpxFile listing
  rw [List.range_eq_range']

theorem mem_listing {X : SCpx} {cells : Cells} (h : Inv X cells) {s : List Nat} {d : Nat} (hl : s.length = d + 1) :
    s ∈ listing cells X.ncells.length ↔ s ∈ cells d := by
  unfold listing
  rw [List.mem_flatMap]
  constructor
  · rintro ⟨e, _, he⟩
    have := h.ok.len e s he
    have : e = d := by omega
    exact this ▸ he
  · intro hs
    refine ⟨d, ?_, hs⟩
    rw [List.mem_range]
    by_contra hc
    rw [h.top d (by omega)] at hs
    simp at hs

theorem listing_sorted {cells : Cells} (h : CellsOK cells) (n : Nat) : (listing cells n).Pairwise (fun a b => a.length ≤ b.length ∧ a ≠ b) := by
  induction n with
  | zero => simp [listing]
  | succ n ih =>
    unfold listing at ih ⊢
    rw [List.range_succ, List.flatMap_append, List.pairwise_append]
    refine ⟨ih, ?_, ?_⟩
    · simp only [List.flatMap_cons, List.flatMap_nil, List.append_nil]
      refine (h.nodup n).imp_of_mem ?_
      intro a b ha hb hab
      exact ⟨by rw [h.len n a ha, h.len n b hb], hab⟩
    · intro a ha b hb
      simp only [List.flatMap_cons, List.flatMap_nil, List.append_nil] at hb
      obtain ⟨e, he, ha⟩ := List.mem_flatMap.1 ha
      have h1 := h.len e a ha
      have h2 := h.len n b hb
      have := List.mem_range.1 he
      refine ⟨by omega, ?_⟩
      rintro rfl
      omega

theorem byDim_listing {X : SCpx} {cells : Cells} (h : Inv X cells) : byDim (listing cells X.ncells.length) = cells := by
  have key : ∀ n d, (listing cells n).filter (fun s => s.length = d + 1) = if d < n then cells d else [] := by
    intro n d
    induction n with
    | zero => simp [listing]
    | succ n ih =>
      unfold listing at ih ⊢
      rw [List.range_succ, List.flatMap_append, List.filter_append, ih]
      simp only [List.flatMap_cons, List.flatMap_nil, List.append_nil]
      by_cases hd : d = n
      · subst hd
        rw [if_neg (by omega), if_pos (by omega), List.nil_append, List.filter_eq_self]
        intro a ha; simp [h.ok.len _ a ha]
      · have e : (cells n).filter (fun s => s.length = d + 1) = [] := by
          rw [List.filter_eq_nil_iff]
          intro a ha; simp [h.ok.len _ a ha]; omega
        rw [e, List.append_nil]
        by_cases hl : d < n
        · rw [if_pos hl, if_pos (by omega)]
        · rw [if_neg hl, if_neg (by omega)]
  funext d
  unfold byDim
  rw [key]
  by_cases hd : d < X.ncells.length
  · rw [if_pos hd]
  · rw [if_neg hd, h.top d (by omega)]

/-- a beginning of the listing satisfies the conditions of `addAll_spec` -/
theorem listing_prefix {X : SCpx} {cells : Cells} (h : Inv X cells) {L R : List (List Nat)} (e : listing cells X.ncells.length = L ++ R) :
    L.Nodup ∧ ∀ L1 s L2, L = L1 ++ s :: L2 → 2 ≤ s.length → ∀ k, k < s.length → s.eraseIdx k ∈ L1 := by
  have hp := listing_sorted h.ok X.ncells.length
  constructor
  · rw [e, List.pairwise_append] at hp
    exact hp.1.imp fun h => h.2
  · rintro L1 s L2 rfl h2 k hk
    obtain ⟨d, hl⟩ : ∃ d, s.length = (d + 1) + 1 := ⟨s.length - 2, by omega⟩
    have hs : s ∈ cells (d + 1) := (mem_listing h hl).1 (by rw [e]; simp)
    have hf := h.ok.closed d s hs k (by omega)
    have hfl : (s.eraseIdx k).length = d + 1 := by rw [List.length_eraseIdx_of_lt hk]; omega
    have hm := (mem_listing h hfl).2 hf
    rw [e, List.append_assoc, List.mem_append] at hm
    rcases hm with hm | hm
    · exact hm
    · exfalso
      rw [e, List.append_assoc, List.pairwise_append, List.cons_append, List.pairwise_cons] at hp
      rw [List.cons_append, List.mem_cons] at hm
      rcases hm with hm | hm
      · rw [hm] at hfl; omega
      · have := (hp.2.1.1 _ hm).1
        omega

theorem showNat_inj {a b : Nat} (h : showNat a = showNat b) : a = b := by
  have h1 := scan_show (a + 1) a (by omega) []
  have h2 := scan_show (b + 1) b (by omega) []
  unfold showNat at h
  rw [h] at h1
  exact h1.symm.trans h2

theorem simplexLine_inj : ∀ {s t : List Nat}, simplexLine s = simplexLine t → s = t := by
  intro s
  induction s with
  | nil =>
    intro t h
    cases t with
    | nil => rfl
    | cons y ys => rw [simplexLine_cons, simplexLine] at h; simp at h
  | cons x xs ih =>
    intro t h
    cases t with
    | nil => rw [simplexLine_cons, simplexLine] at h; simp at h
    | cons y ys =>
      rw [simplexLine_cons, simplexLine_cons] at h
      have e := congrArg (splitDelim ',') h
      rw [splitDelim_append (comma_showNat x), splitDelim_append (comma_showNat y)] at e
      have e := Option.some.inj e
      rw [showNat_inj (Prod.mk.inj e).1, ih (Prod.mk.inj e).2]

/-- the lines written first are those of the simplices listed first -/
theorem flatMap_prefix {b : Str} : ∀ {L T : List (List Nat)}, T.flatMap writeSimplex = L.flatMap writeSimplex ++ b → ∃ R, T = L ++ R := by
  intro L
  induction L with
  | nil => intro T _; exact ⟨T, rfl⟩
  | cons s L ih =>
    intro T h
    cases T with
    | nil => rw [List.flatMap_cons] at h; simp [writeSimplex] at h
    | cons t T =>
      rw [List.flatMap_cons, List.flatMap_cons] at h
      have h' : simplexLine t ++ '\n' :: T.flatMap writeSimplex = simplexLine s ++ '\n' :: (L.flatMap writeSimplex ++ b) := by
        simpa [writeSimplex] using h
      have e := congrArg (splitDelim '\n') h'
      rw [splitDelim_append (nl_simplexLine t), splitDelim_append (nl_simplexLine s)] at e
      have e := Option.some.inj e
      obtain ⟨R, hR⟩ := ih (Prod.mk.inj e).2
      exact ⟨R, by rw [simplexLine_inj (Prod.mk.inj e).1, hR]; rfl⟩

/-! ### termination -/

/-- at least one more line can be read from the stream only this many times -/
def meas (s : Stream) : Nat := if s.eof || s.fail then 0 else s.rest.length + 1

theorem splitDelim_length {d : Char} : ∀ {w : Str} {p : Str × Str}, splitDelim d w = some p → p.2.length < w.length := by
  intro w
  induction w with
  | nil => intro p h; cases h
  | cons c w ih =>
    intro p h
    rw [splitDelim] at h
    split at h
    · cases h; simp
    · cases e : splitDelim d w with
      | none => rw [e] at h; cases h
      | some q => rw [e] at h; cases h; have := ih e; simp; omega

theorem getline_meas (d : Char) (s : Stream) (line : Str) : (getline d s line).1.fail = true ∨ meas (getline d s line).1 < meas s := by
  unfold getline
  by_cases h : (s.eof || s.fail) = true
  · rw [if_pos h]; exact Or.inl rfl
  · rw [if_neg h]
    right
    have : meas s = s.rest.length + 1 := by unfold meas; rw [if_neg h]
    rw [this]
    split
    · rename_i p e
      have := splitDelim_length e
      simp [meas]; exact this
    · simp [meas]

theorem getline_meas_le (d : Char) (s : Stream) (line : Str) : meas (getline d s line).1 ≤ meas s := by
  rcases getline_meas d s line with h | h
  · have : meas (getline d s line).1 = 0 := by unfold meas; rw [if_pos (by simp [h])]
    omega
  · omega

theorem stoi_total (s : Str) : stoi s = .error .thrown ∨ ∃ z, stoi s = .ok z := by
  have hd : ∀ b u, stoiDigits b u = .error .thrown ∨ ∃ z, stoiDigits b u = .ok z := by
    intro b u
    unfold stoiDigits
    split
    · exact Or.inl rfl
    · split <;> split
      · exact Or.inr ⟨_, rfl⟩
      · exact Or.inl rfl
      · exact Or.inr ⟨_, rfl⟩
      · exact Or.inl rfl
  unfold stoi
  split <;> exact hd _ _

theorem readPair_total (c : Codec V) (s : Str) : readPair c s = .error .thrown ∨ ∃ p, readPair c s = .ok p := by
  unfold readPair
  show (stoi _ >>= fun i => stoi _ >>= fun v => _) = _ ∨ _
  rcases stoi_total (getline ':' (Stream.ofStr s) []).2 with h | ⟨i, h⟩
  · left; rw [h]; rfl
  · rcases stoi_total (getline '\n' (getline ':' (Stream.ofStr s) []).1 (getline ':' (Stream.ofStr s) []).2).2 with h' | ⟨v, h'⟩
    · left; rw [h]; show (stoi _ >>= fun v => _) = _; rw [h']; rfl
    · right; refine ⟨(toSize i, c.ofInt v), ?_⟩; show (stoi _ >>= fun i => _) = _; rw [h]; show (stoi _ >>= fun v => _) = _; rw [h']; rfl

theorem readVecLoop_total (c : Codec V) : ∀ (fuel : Nat) (s : Stream) (tok : Str), meas s < fuel →
    readVecLoop c fuel s tok = .error .thrown ∨ ∃ v, readVecLoop c fuel s tok = .ok v := by
  intro fuel
  induction fuel with
  | zero => intro s tok h; omega
  | succ f ih =>
    intro s tok h
    rw [readVecLoop]
    by_cases hf : (getline ',' s tok).1.fail = true
    · rw [if_pos hf]; exact Or.inr ⟨_, rfl⟩
    · rw [if_neg hf]
      have hm : meas (getline ',' s tok).1 < f := by
        rcases getline_meas ',' s tok with h' | h'
        · exact absurd h' hf
        · omega
      split
      · exact ih _ _ hm
      · rcases readPair_total c (getline ',' s tok).2 with h1 | ⟨p, h1⟩
        · left; rw [h1]; rfl
        · rcases ih (getline ',' s tok).1 (getline ',' s tok).2 hm with h2 | ⟨v, h2⟩
          · left; rw [h1]; show (readVecLoop c f _ _ >>= fun v => _) = _; rw [h2]; rfl
          · right; refine ⟨p :: v, ?_⟩; rw [h1]; show (readVecLoop c f _ _ >>= fun v => _) = _; rw [h2]; rfl

theorem readVec_total (c : Codec V) (line : Str) : readVec c line = .error .thrown ∨ ∃ v, readVec c line = .ok v :=
  readVecLoop_total c _ _ _ (by simp [meas, Stream.ofStr])

theorem readCols_total (c : Codec V) : ∀ (n : Nat) (s : Stream) (line : Str), readCols c n s line = .error .thrown ∨
    ∃ r, readCols c n s line = .ok r ∧ meas r.2 ≤ meas s := by
  intro n
  induction n with
  | zero => intro s line; exact Or.inr ⟨_, rfl, Nat.le_refl _⟩
  | succ n ih =>
    intro s line
    rw [readCols]
    rcases readVec_total c (getline '\n' s line).2 with h1 | ⟨v, h1⟩
    · left; rw [h1]; rfl
    · rcases ih (getline '\n' s line).1 (getline '\n' s line).2 with h2 | ⟨r, h2, h3⟩
      · left; rw [h1]; show (readCols c n _ _ >>= fun r => _) = _; rw [h2]; rfl
      · right
        refine ⟨(v :: r.1, r.2), ?_, le_trans h3 (getline_meas_le _ _ _)⟩
        rw [h1]; show (readCols c n _ _ >>= fun r => _) = _; rw [h2]; rfl

theorem readDims_total (c : Codec V) (s : Stream) (line : Str) : readDims c s line = .error .thrown ∨
    ∃ r, readDims c s line = .ok r ∧ meas r.2 ≤ meas s := by
  unfold readDims
  rcases stoi_total (getline ',' (Stream.ofStr line) []).2 with h1 | ⟨m, h1⟩
  · left; rw [h1]; rfl
  · rw [h1]
    show (stoi _ >>= fun n => _) = _ ∨ ∃ r, (stoi _ >>= fun n => _) = _ ∧ _
    rcases stoi_total (getline '\n' (getline ',' (Stream.ofStr line) []).1 (getline ',' (Stream.ofStr line) []).2).2 with h2 | ⟨n, h2⟩
    · left; rw [h2]; rfl
    · rw [h2]
      show (if n < 0 then Except.error Err.thrown else _) = _ ∨ ∃ r, (if n < 0 then Except.error Err.thrown else _) = _ ∧ _
      by_cases hn : n < 0
      · left; rw [if_pos hn]
      · rw [if_neg hn]
        rcases readCols_total c n.toNat s line with h3 | ⟨r, h3, h4⟩
        · left; rw [h3]; rfl
        · right; refine ⟨(⟨toSize m, r.1⟩, r.2), ?_, h4⟩; rw [h3]; rfl

theorem readMat_total (c : Codec V) (s : Stream) : readMat c s = .error .thrown ∨
    ∃ r, readMat c s = .ok r ∧ (meas r.2 < meas s ∨ meas r.2 = 0) := by
  unfold readMat
  rcases readDims_total c (getline '\n' (getline '\n' s []).1 (getline '\n' s []).2).1 (getline '\n' (getline '\n' s []).1 (getline '\n' s []).2).2 with h | ⟨r, h1, h2⟩
  · exact Or.inl h
  · refine Or.inr ⟨r, h1, ?_⟩
    have h3 := getline_meas_le '\n' (getline '\n' s []).1 (getline '\n' s []).2
    rcases getline_meas '\n' s [] with h4 | h4
    · right
      have : meas (getline '\n' s []).1 = 0 := by unfold meas; rw [if_pos (by simp [h4])]
      omega
    · left; omega

/-- `failbit` is never set without `eofbit` -/
def Good (s : Stream) : Prop := s.fail = true → s.eof = true

theorem getline_Good (d : Char) {s : Stream} (h : Good s) (line : Str) : Good (getline d s line).1 := by
  unfold getline
  by_cases hb : (s.eof || s.fail) = true
  · rw [if_pos hb]
    intro _
    show s.eof = true
    rcases Bool.or_eq_true_iff.1 hb with h1 | h1
    · exact h1
    · exact h h1
  · rw [if_neg hb]
    split
    · intro hc; cases hc
    · intro _; rfl

theorem readCols_Good (c : Codec V) : ∀ (n : Nat) {s : Stream} (line : Str), Good s → ∀ r, readCols c n s line = .ok r → Good r.2 := by
  intro n
  induction n with
  | zero => intro s line h r e; cases e; exact h
  | succ n ih =>
    intro s line h r e
    rw [readCols] at e
    cases h1 : readVec c (getline '\n' s line).2 with
    | error x => rw [h1] at e; cases e
    | ok v =>
      rw [h1] at e
      cases h2 : readCols c n (getline '\n' s line).1 (getline '\n' s line).2 with
      | error x =>
        have e' : (readCols c n (getline '\n' s line).1 (getline '\n' s line).2 >>= fun r => Except.ok (v :: r.1, r.2)) = Except.ok r := e
        rw [h2] at e'; cases e'
      | ok q =>
        have e' : (readCols c n (getline '\n' s line).1 (getline '\n' s line).2 >>= fun r => Except.ok (v :: r.1, r.2)) = Except.ok r := e
        rw [h2] at e'; cases e'
        exact ih _ (getline_Good _ h _) q h2

theorem readMat_Good (c : Codec V) {s : Stream} (h : Good s) {r : CMat V × Stream} (e : readMat c s = .ok r) : Good r.2 := by
  unfold readMat readDims at e
  have hg := getline_Good '\n' (getline_Good '\n' h []) (getline '\n' s []).2
  generalize (getline '\n' (getline '\n' s []).1 (getline '\n' s []).2).1 = t at e hg
  generalize (getline '\n' (getline '\n' s []).1 (getline '\n' s []).2).2 = line at e
  rcases stoi_total (getline ',' (Stream.ofStr line) []).2 with h1 | ⟨m, h1⟩
  · rw [h1] at e; cases e
  · rw [h1] at e
    rcases stoi_total (getline '\n' (getline ',' (Stream.ofStr line) []).1 (getline ',' (Stream.ofStr line) []).2).2 with h2 | ⟨n, h2⟩
    · have e : (stoi (getline '\n' (getline ',' (Stream.ofStr line) []).1 (getline ',' (Stream.ofStr line) []).2).2 >>= fun n => _) = Except.ok r := e
      rw [h2] at e; cases e
    · have e : (stoi (getline '\n' (getline ',' (Stream.ofStr line) []).1 (getline ',' (Stream.ofStr line) []).2).2 >>= fun n => _) = Except.ok r := e
      rw [h2] at e
      have e : (if n < 0 then Except.error Err.thrown else (readCols c n.toNat t line >>= fun r => Except.ok ((⟨toSize m, r.1⟩ : CMat V), r.2))) = Except.ok r := e
      by_cases hn : n < 0
      · rw [if_pos hn] at e; cases e
      · rw [if_neg hn] at e
        cases h3 : readCols c n.toNat t line with
        | error x => rw [h3] at e; cases e
        | ok q => rw [h3] at e; cases e; exact readCols_Good c _ _ hg q h3

theorem readMapLoop_total (c : Codec V) : ∀ (fuel : Nat) (s : Stream), Good s → meas s + 1 < fuel →
    readMapLoop c fuel s = .error .thrown ∨ ∃ v, readMapLoop c fuel s = .ok v := by
  intro fuel
  induction fuel with
  | zero => intro s hg h; omega
  | succ f ih =>
    intro s hg h
    rw [readMapLoop]
    by_cases he : s.eof = true
    · rw [if_pos he]; exact Or.inr ⟨_, rfl⟩
    · rw [if_neg he]
      have hs : meas s = s.rest.length + 1 := by
        unfold meas; rw [if_neg]
        rw [Bool.or_eq_true_iff]
        rintro (h1 | h1)
        · exact he h1
        · exact he (hg h1)
      rcases readMat_total c s with h1 | ⟨r, h1, h2⟩
      · left; rw [h1]; rfl
      · rcases ih r.2 (readMat_Good c hg h1) (by omega) with h3 | ⟨v, h3⟩
        · left; rw [h1]; show (readMapLoop c f r.2 >>= fun v => _) = _; rw [h3]; rfl
        · right; refine ⟨r.1 :: v, ?_⟩; rw [h1]; show (readMapLoop c f r.2 >>= fun v => _) = _; rw [h3]; rfl

theorem readMap_total (c : Codec V) (file : Str) : readMap c file = .error .thrown ∨ ∃ v, readMap c file = .ok v := by
  refine readMapLoop_total c _ _ (getline_Good _ (by intro h; cases h) _) ?_
  rcases getline_meas '\n' (Stream.ofStr file) [] with h | h
  · have : meas (getline '\n' (Stream.ofStr file) []).1 = 0 := by unfold meas; rw [if_pos (by simp [h])]
    omega
  · have : meas (Stream.ofStr file) = file.length + 1 := by simp [meas, Stream.ofStr]
    omega

end Txt
end BATS

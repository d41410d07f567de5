import Verif.Proofs.Simplicial

set_option linter.unusedSectionVars false
set_option linter.unusedVariables false
set_option linter.unusedSimpArgs false

/-! # `add` and `add_recursive` keep the invariant -/

namespace BATS
namespace SCpx
open Reduction

/-- `X'` agrees with `X` above dimension `d` -/
structure Frame (X X' : SCpx) (d : Nat) : Prop where
  len : X'.ncells.length = X.ncells.length
  nc : ∀ e, d < e → X'.ncells[e]? = X.ncells[e]?
  sp : ∀ e, d < e → X'.spx[e]? = X.spx[e]?
  fc : ∀ e, d ≤ e → X'.faces[e]? = X.faces[e]?
  co : ∀ e, d ≤ e → X'.coeff[e]? = X.coeff[e]?

theorem Inv.pinv {X : SCpx} {cells : Cells} (h : Inv X cells) {d : Nat} (hd : d < X.ncells.length) : PInv X cells d :=
  ⟨h.ok, h.trie, h.sizes, hd, fun e he => h.dim e (by omega), fun e he => h.bd e (by omega)⟩

theorem Inv.of_pinv {X X' : SCpx} {cells cells' : Cells} {d : Nat} (h : Inv X cells) (hp : PInv X' cells' d) (fr : Frame X X' d)
    (hc : ∀ e, d < e → cells' e = cells e) (hpre : cells d <+: cells' d) : Inv X' cells' := by
  have hlt := hp.lt
  refine ⟨hp.ok, hp.trie, hp.sizes, ?_, ?_, ?_⟩
  · intro e he
    rw [hc e (by omega)]; exact h.top e (by rw [← fr.len]; exact he)
  · intro e he
    by_cases hed : e ≤ d
    · exact hp.dim e hed
    · have := h.dim e (by rw [← fr.len]; exact he)
      exact ⟨by rw [fr.nc e (by omega), hc e (by omega)]; exact this.nc, by rw [fr.sp e (by omega), hc e (by omega)]; exact this.sp⟩
  · intro e he
    by_cases hed : e < d
    · exact hp.bd e hed
    · refine (h.bd e (by rw [← fr.len]; exact he)).ext h.ok (hc _ (by omega)) ?_ (fr.fc e (by omega)) (fr.co e (by omega))
      by_cases h' : e = d
      · subst h'; exact hpre
      · rw [hc e (by omega)]

theorem PInv.congr {X X' : SCpx} {cells : Cells} {d : Nat} (h : PInv X cells d) (ht : X'.trie = X.trie) (hs : SizesOK X')
    (hl : X'.ncells.length = X.ncells.length) (hn : ∀ e, e ≤ d → X'.ncells[e]? = X.ncells[e]?) (hsp : ∀ e, e ≤ d → X'.spx[e]? = X.spx[e]?)
    (hf : ∀ e, e < d → X'.faces[e]? = X.faces[e]?) (hc : ∀ e, e < d → X'.coeff[e]? = X.coeff[e]?) : PInv X' cells d := by
  refine ⟨h.ok, by rw [ht]; exact h.trie, hs, by rw [hl]; exact h.lt, ?_, ?_⟩
  · intro e he
    exact ⟨by rw [hn e he]; exact (h.dim e he).nc, by rw [hsp e he]; exact (h.dim e he).sp⟩
  · intro e he
    exact (h.bd e he).ext h.ok rfl List.prefix_rfl (hf e he) (hc e he)

/-- completing a vertex -/
theorem finish_zero {X : SCpx} {cells : Cells} (h : PInv X cells 0) {s : List Nat} (hl : s.length = 1) (hs : s ∉ cells 0)
    {nc : List Nat} (hnc : nc = X.ncells.set 0 ((cells 0).length + 1)) :
    ∃ Y, finish { X with ncells := nc } s 0 (cells 0).length = .ok Y ∧ PInv Y (push cells 0 s) 0 ∧ Frame X Y 0 := by
  have hlt := h.lt
  have hsl : 0 < X.spx.length := by rw [h.sizes.sp]; exact hlt
  subst hnc
  refine ⟨_, finish_spec (v := (cells 0).flatten) (h.dim 0 le_rfl).sp, ?_, ?_⟩
  · refine ⟨cellsOK_push h.ok hl hs (by intro e he; omega), trieOK_push h.trie h.ok hl hs (by intro e he; omega), ?_, by simpa using hlt, ?_, ?_⟩
    · exact ⟨by simpa using hlt, by simpa using h.sizes.sp, by simpa using h.sizes.fc, by simpa using h.sizes.co⟩
    · intro e he
      have : e = 0 := by omega
      subst this
      exact ⟨by simp [push_same, hlt], by simp [push_same, hsl]⟩
    · intro e he; omega
  · exact ⟨by simp, fun e he => by simp; rw [List.getElem?_set_ne (by omega)], fun e he => by simp; rw [List.getElem?_set_ne (by omega)],
      fun e he => rfl, fun e he => rfl⟩

/-- completing a `(d+1)`-simplex whose faces are all present -/
theorem finish_succ {Y : SCpx} {cells : Cells} {d : Nat} (h : PInv Y cells d) (hd : d + 1 < Y.ncells.length) {s : List Nat}
    (hl : s.length = d + 2) (hs : s ∉ cells (d + 1)) (hf : ∀ k, k < d + 2 → s.eraseIdx k ∈ cells d)
    (hnc : Y.ncells[d + 1]? = some ((cells (d + 1)).length + 1)) (hsp : Y.spx[d + 1]? = some (cells (d + 1)).flatten)
    {Fs : List (List Nat)} {Cs : List (List Int)} {f : List Nat} {c : List Int}
    (h1 : Fs.length = (cells (d + 1)).length) (h2 : Cs.length = (cells (d + 1)).length)
    (hb : ∀ (i : Nat) (t : List Nat), (cells (d + 1))[i]? = some t → ∃ f c, Fs[i]? = some f ∧ Cs[i]? = some c ∧ Block cells d t f c)
    (hfs : Y.faces[d]? = some (Fs ++ [f]).flatten) (hcs : Y.coeff[d]? = some (Cs ++ [c]).flatten) (hB : Block cells d s f c) :
    ∃ Z, finish Y s (d + 1) (cells (d + 1)).length = .ok Z ∧ PInv Z (push cells (d + 1) s) (d + 1) ∧ Frame Y Z (d + 1) ∧
      Z.faces = Y.faces ∧ Z.coeff = Y.coeff := by
  have hsl : d + 1 < Y.spx.length := by rw [h.sizes.sp]; exact hd
  have hf' : ∀ e, d + 1 = e + 1 → ∀ k, k < e + 2 → s.eraseIdx k ∈ cells e := by
    intro e he; have : d = e := by omega
    subst this; exact hf
  refine ⟨_, finish_spec hsp, ?_, ?_, rfl, rfl⟩
  · refine ⟨cellsOK_push h.ok hl hs hf', trieOK_push h.trie h.ok hl hs hf', ?_, hd, ?_, ?_⟩
    · exact ⟨h.sizes.ne, by simpa using h.sizes.sp, h.sizes.fc, h.sizes.co⟩
    · intro e he
      by_cases hed : e = d + 1
      · subst hed
        exact ⟨by simp [push_same, hnc], by simp [push_same, hsl]⟩
      · have := h.dim e (by omega)
        exact ⟨by rw [push_ne _ _ hed]; exact this.nc, by rw [push_ne _ _ hed]; simp; rw [List.getElem?_set_ne (by omega)]; exact this.sp⟩
    · intro e he
      by_cases hed : e = d
      · subst hed
        refine ⟨Fs ++ [f], Cs ++ [c], hfs, hcs, by rw [push_same]; simp [h1], by rw [push_same]; simp [h2], ?_⟩
        intro i t ht
        rw [push_same] at ht
        have ep : ∀ t, facePairs (push cells (e + 1) s) e t = facePairs cells e t := by
          intro t; unfold facePairs; rw [push_ne _ _ (by omega)]
        rcases Nat.lt_or_ge i (cells (e + 1)).length with h3 | h3
        · rw [List.getElem?_append_left h3] at ht
          obtain ⟨f', c', b1, b2, b3⟩ := hb i t ht
          refine ⟨f', c', by rw [List.getElem?_append_left (by omega), b1], by rw [List.getElem?_append_left (by omega), b2], b3.lf, b3.lc, b3.sorted, ?_⟩
          rw [ep]; exact b3.perm
        · rw [List.getElem?_append_right h3] at ht
          have hi : i - (cells (e + 1)).length = 0 := by
            by_contra hne
            obtain ⟨m, hm⟩ := Nat.exists_eq_succ_of_ne_zero hne
            rw [hm] at ht; simp at ht
          rw [hi] at ht
          simp only [List.getElem?_cons_zero, Option.some.injEq] at ht
          subst ht
          refine ⟨f, c, ?_, ?_, hB.lf, hB.lc, hB.sorted, by rw [ep]; exact hB.perm⟩
          · rw [List.getElem?_append_right (by omega), h1, hi]; rfl
          · rw [List.getElem?_append_right (by omega), h2, hi]; rfl
      · exact (h.bd e (by omega)).ext h.ok (push_ne _ _ (by omega)) (by rw [push_ne _ _ (by omega)]) rfl rfl
  · exact ⟨rfl, fun e he => rfl, fun e he => by simp; rw [List.getElem?_set_ne (by omega)], fun e he => rfl, fun e he => rfl⟩

/-- the signed faces `k < n` in the order of the loop -/
def loopPairs (cells : Cells) (d : Nat) (s : List Nat) (n : Nat) : List (Nat × Int) :=
  (List.range n).reverse.map (fun k => ((cells d).idxOf (s.eraseIdx k), (-1) ^ (d + k)))

theorem loopPairs_succ (cells : Cells) (d : Nat) (s : List Nat) (n : Nat) :
    loopPairs cells d s (n + 1) = ((cells d).idxOf (s.eraseIdx n), (-1) ^ (d + n)) :: loopPairs cells d s n := by
  unfold loopPairs
  rw [List.range_succ, List.reverse_append]; rfl

theorem loopPairs_perm (cells : Cells) (d : Nat) (s : List Nat) : (loopPairs cells d s (d + 2)).Perm (facePairs cells d s) :=
  (List.reverse_perm _).map _

theorem zip_map_fst_snd {α β : Type} (l : List (α × β)) : (l.map Prod.fst).zip (l.map Prod.snd) = l := by
  induction l with
  | nil => rfl
  | cons a l ih => simp [ih]

theorem sign_step (d n : Nat) : -((-1 : Int) ^ (d + (n + 1) + 1)) = (-1) ^ (d + n + 1) := by
  rw [show d + (n + 1) + 1 = (d + n + 1) + 1 by ring, pow_succ]; ring

theorem sign_now (d n : Nat) : (-1 : Int) ^ (d + (n + 1) + 1) = (-1) ^ (d + n) := by
  rw [show d + (n + 1) + 1 = (d + n) + 2 by ring, pow_add]; norm_num

theorem faceLoop_ok {t : Trie Nat} {cells : Cells} (ht : TrieOK t cells) (hc : CellsOK cells) {d : Nat} {s : List Nat} (hl : s.length = d + 2) :
    ∀ n, n ≤ d + 2 → (∀ k, k < n → s.eraseIdx k ∈ cells d) → ∀ fs cs,
    faceLoop t s n ((-1) ^ (d + n + 1)) fs cs =
      (fs ++ (loopPairs cells d s n).map Prod.fst, cs ++ (loopPairs cells d s n).map Prod.snd, true) := by
  intro n
  induction n with
  | zero => intro _ _ fs cs; simp [faceLoop, loopPairs]
  | succ n ih =>
    intro hn hf fs cs
    have hm := hf n (by omega)
    have hlen := hc.len d _ hm
    have hne : s.eraseIdx n ≠ [] := by intro h; rw [h] at hlen; simp at hlen
    have hg := ht.get hc hne (by rw [hlen]; exact hm)
    rw [hlen, Nat.add_sub_cancel] at hg
    unfold faceLoop
    simp only [hg]
    rw [sign_step, ih (by omega) (fun k hk => hf k (by omega)), loopPairs_succ, sign_now]
    simp

theorem faceLoop_fail {t : Trie Nat} {cells : Cells} (ht : TrieOK t cells) {d : Nat} {s : List Nat} (hl : s.length = d + 2) :
    ∀ n, n ≤ d + 2 → (∃ k, k < n ∧ s.eraseIdx k ∉ cells d) → ∀ c fs cs,
    ∃ a b, faceLoop t s n c fs cs = (fs ++ a, cs ++ b, false) := by
  intro n
  induction n with
  | zero => rintro _ ⟨k, hk, _⟩; omega
  | succ n ih =>
    rintro hn ⟨k, hk, hkn⟩ c fs cs
    have hlen : (s.eraseIdx n).length = d + 1 := by rw [List.length_eraseIdx_of_lt (by omega), hl]; omega
    have hne : s.eraseIdx n ≠ [] := by intro h; rw [h] at hlen; simp at hlen
    unfold faceLoop
    by_cases hm : s.eraseIdx n ∈ cells d
    · have hs : (t.get? (s.eraseIdx n)).isSome := (ht.isSome hne).2 (by rw [hlen]; exact hm)
      obtain ⟨i, hi⟩ := Option.isSome_iff_exists.1 hs
      have hkn' : k ≠ n := by rintro rfl; exact hkn hm
      obtain ⟨a, b, e⟩ := ih (by omega) ⟨k, by omega, hkn⟩ (-c) (fs ++ [i]) (cs ++ [c])
      refine ⟨[i] ++ a, [c] ++ b, ?_⟩
      simp only [hi, e]; simp
    · have := ht.none hne (by rw [hlen]; exact hm)
      exact ⟨[], [], by simp [this]⟩

/-- all faces of `s` are stored -/
def FacesIn (cells : Cells) (d : Nat) (s : List Nat) : Prop := ∀ e, d = e + 1 → ∀ k, k < e + 2 → s.eraseIdx k ∈ cells e

theorem addUnsafe_ok {X : SCpx} {cells : Cells} {d : Nat} (h : Inv X cells) (hd : d < X.ncells.length) {s : List Nat}
    (hl : s.length = d + 1) (hs : s ∉ cells d) (hf : FacesIn cells d s) :
    ∃ Y, addUnsafe X s = .ok (Y, some (cells d).length) ∧ Inv Y (push cells d s) ∧ Y.ncells.length = X.ncells.length := by
  have hp := h.pinv hd
  have hnc := (h.dim d hd).nc
  unfold addUnsafe
  rw [hl, Nat.add_sub_cancel]
  simp only [rd_some hnc, bind_ok, wr_lt _ hd]
  rcases d with _ | d
  · rw [if_neg (by omega)]
    obtain ⟨Y, h1, h2, h3⟩ := finish_zero hp hl hs rfl
    refine ⟨Y, by rw [h1]; rfl, h.of_pinv h2 h3 (fun e he => push_ne _ _ (by omega)) (by rw [push_same]; exact List.prefix_append _ _), h3.len⟩
  · rw [if_pos (by omega)]
    obtain ⟨Fs, Cs, a1, a2, a3, a4, a5⟩ := h.bd d hd
    have hf' := hf d rfl
    have hfl : d < X.faces.length := by have := h.sizes.fc; omega
    have hcl : d < X.coeff.length := by have := h.sizes.co; omega
    have hloop := faceLoop_ok h.trie h.ok hl (d + 2) le_rfl hf' Fs.flatten Cs.flatten
    have hsign : ((-1 : Int)) ^ (d + (d + 2) + 1) = -1 := by
      rw [show d + (d + 2) + 1 = 2 * (d + 1) + 1 by ring, pow_succ, pow_mul]; norm_num
    rw [hsign] at hloop
    simp only [Nat.add_sub_cancel, rd_some a1, rd_some a2, bind_ok]
    rw [hloop]
    simp only [if_true]
    have hll : (loopPairs cells d s (d + 2)).length = d + 2 := by simp [loopPairs]
    obtain ⟨f', c', g1, g2⟩ := sortBlock_push (X := X) (s := s) a3 a4 a5 (f := (loopPairs cells d s (d + 2)).map Prod.fst)
      (c := (loopPairs cells d s (d + 2)).map Prod.snd) (by simp [hll]) (by simp [hll])
      (by rw [zip_map_fst_snd]; exact loopPairs_perm cells d s)
    rw [g1, bind_ok]
    have hpd : PInv X cells d := h.pinv (by omega)
    have hY : PInv { X with ncells := X.ncells.set (d + 1) ((cells (d + 1)).length + 1), faces := X.faces.set d (Fs ++ [f']).flatten, coeff := X.coeff.set d (Cs ++ [c']).flatten } cells d := by
      refine hpd.congr rfl ?_ (by simp) (fun e he => ?_) (fun e he => rfl) (fun e he => ?_) (fun e he => ?_)
      · exact ⟨by simpa using h.sizes.ne, by simpa using h.sizes.sp, by simpa using h.sizes.fc, by simpa using h.sizes.co⟩
      · exact List.getElem?_set_ne (by omega)
      · exact List.getElem?_set_ne (by omega)
      · exact List.getElem?_set_ne (by omega)
    obtain ⟨Z, z1, z2, z3, z4, z5⟩ := finish_succ hY (by simpa using hd) hl hs hf' (by simp [hd]) (h.dim (d + 1) hd).sp a3 a4 a5
      (by simp [hfl]) (by simp [hcl]) g2
    refine ⟨Z, by rw [z1]; rfl, ?_, by rw [z3.len]; simp⟩
    refine h.of_pinv z2 ⟨by rw [z3.len]; simp, fun e he => ?_, fun e he => z3.sp e he, fun e he => ?_, fun e he => ?_⟩ (fun e he => push_ne _ _ (by omega)) (by rw [push_same]; exact List.prefix_append _ _)
    · rw [z3.nc e he]; exact List.getElem?_set_ne (by omega)
    · rw [z4]; exact List.getElem?_set_ne (by omega)
    · rw [z5]; exact List.getElem?_set_ne (by omega)

theorem set_getElem?_self {α : Type} {l : List α} {i : Nat} {a : α} (h : l[i]? = some a) : l.set i a = l := by
  apply List.ext_getElem?
  intro j
  by_cases hj : i = j
  · subst hj
    rw [List.getElem?_set_self (List.getElem?_eq_some_iff.1 h).1, h]
  · rw [List.getElem?_set_ne hj]

/-- an add with a missing face returns `NO_IND` and changes nothing -/
theorem addUnsafe_fail {X : SCpx} {cells : Cells} {d : Nat} (h : Inv X cells) (hd : d < X.ncells.length) {s : List Nat}
    (hl : s.length = d + 1) (hf : ¬ FacesIn cells d s) : addUnsafe X s = .ok (X, none) := by
  unfold FacesIn at hf
  push Not at hf
  obtain ⟨e, rfl, k, hk, hkn⟩ := hf
  have hnc := (h.dim (e + 1) hd).nc
  obtain ⟨Fs, Cs, a1, a2, a3, a4, a5⟩ := h.bd e hd
  obtain ⟨a, b, hloop⟩ := faceLoop_fail h.trie hl (e + 2) le_rfl ⟨k, hk, hkn⟩ (-1) Fs.flatten Cs.flatten
  have hlen : Cs.flatten.length = Fs.flatten.length := by
    obtain ⟨hF, hC⟩ := BdOK.lengths (X := X) a3 a4 a5
    rw [flatten_length_uniform hF, flatten_length_uniform hC, a3, a4]
  unfold addUnsafe
  rw [hl, Nat.add_sub_cancel]
  simp only [rd_some hnc, bind_ok, wr_lt _ hd]
  rw [if_pos (by omega)]
  simp only [Nat.add_sub_cancel, rd_some a1, rd_some a2, bind_ok]
  rw [hloop]
  simp only [Bool.false_eq_true, if_false]
  rw [List.take_left, ← hlen, List.take_left, set_getElem?_self a1, set_getElem?_self a2, List.set_set, set_getElem?_self hnc]
  rfl

end SCpx
end BATS

import Verif.Proofs.ZZStep

set_option linter.unusedSectionVars false
set_option linter.unusedSimpArgs false
set_option linter.unusedVariables false

/-! # Zigzag: one arrow -/

namespace BATS
namespace Zigzag
open Reduction Matrix BATS.Fact CMat
open BATS.Quiver (piv piv_some piv_none perm_mul prod3_spec)

variable {F : Type} [Field F] [DecidableEq F] {T : Type}

/-- the running change of basis -/
def Chg (n : Nat) (d : Bool) (L P : CMat F) (C : Matrix (Fin n) (Fin n) F) : Prop :=
  if d then C = P.mat n n * L.mat n n else L.mat n n * P.mat n n * C = 1

/-- the bookkeeping of the bars in one dimension -/
structure BarInv (es : List (Event T)) (k : Nat) {D : Nat} (Z W : Nat → Submodule F (Fin D → F)) (N : Nat) (I : List Nat) (gen : Nat → Fin D → F)
    (L P : CMat F) (d : Bool) (bars : List (ZPair T)) (m : AMap) : Prop where
  shapeL : L.Shape I.length I.length
  shapeP : P.Shape I.length I.length
  lower : LowerInv (L.mat I.length I.length)
  perm : IsPermMatrix (P.mat I.length I.length)
  data : ∃ iv β C, Chg I.length d L P C ∧ PairsOK es k iv bars ∧ EndsOK N iv ∧ (m.map Prod.fst).Nodup ∧ (∀ a b, (a, b) ∈ m ↔ a < I.length ∧ b = β a) ∧
    (∀ b, b ∈ alive iv N ↔ ∃ a, a < I.length ∧ β a = b) ∧ (∀ a a', a < I.length → a' < I.length → β a = β a' → a = a') ∧
    Fam Z W (isEntry es) N iv (fun g : Fin I.length => gen (I.get g)) C β

section
variable {es : List (Event T)} {k : Nat} {D : Nat} {Z W : Nat → Submodule F (Fin D → F)} {N : Nat} {I I' : List Nat} {gen gen' : Nat → Fin D → F}
  {L P : CMat F} {d : Bool} {bars : List (ZPair T)} {m : AMap}

theorem Chg.inverse {n : Nat} {L P : CMat F} {d : Bool} {C : Matrix (Fin n) (Fin n) F} (h : Chg n d L P C) (hl : LowerInv (L.mat n n)) (hp : IsPermMatrix (P.mat n n)) :
    ∃ D, C * D = 1 := by
  unfold Chg at h
  cases d with
  | true =>
    rw [if_pos rfl] at h
    obtain ⟨Li, hLi⟩ := upper_inv_exists (UpperInv.of_transpose hl)
    refine ⟨Liᵀ * (P.mat n n)ᵀ, ?_⟩
    have : Liᵀ * L.mat n n = 1 := by
      have := congrArg Matrix.transpose hLi
      rw [Matrix.transpose_mul, Matrix.transpose_transpose, Matrix.transpose_one] at this; exact this
    rw [h, Matrix.mul_assoc, ← Matrix.mul_assoc (L.mat n n), mul_eq_one_comm.1 this, Matrix.one_mul, (perm_mul hp).1]
  | false =>
    rw [if_neg (by simp)] at h
    exact ⟨_, mul_eq_one_comm.1 h⟩

theorem applyBasis_right {n n' : Nat} {A L P : CMat F} (hA : A.Shape n' n) (hL : L.Shape n n) (hP : P.Shape n n) (hl : LowerInv (L.mat n n)) (hp : IsPermMatrix (P.mat n n))
    {d : Bool} {C : Matrix (Fin n) (Fin n) F} (hC : Chg n d L P C) : ∃ R, applyBasis A L P d true = .ok R ∧ R.Shape n' n ∧ R.mat n' n = A.mat n' n * C := by
  unfold Chg at hC
  cases d with
  | true =>
    rw [if_pos rfl] at hC
    obtain ⟨R, r1, r2, r3⟩ := prod3_spec hA hP hL
    refine ⟨R, ?_, r2, by rw [r3, hC, Matrix.mul_assoc]⟩
    show prod3 A P L = _
    exact r1
  | false =>
    rw [if_neg (by simp)] at hC
    obtain ⟨Pt, p1, p2, p3⟩ := transpose_spec hP
    obtain ⟨Li, l1, l2, l3, l4⟩ := lInv_spec hL hl
    obtain ⟨R, r1, r2, r3⟩ := prod3_spec hA p2 l2
    refine ⟨R, ?_, r2, ?_⟩
    · show (CMat.transpose P >>= fun Pt => lInv L >>= fun Li => prod3 A Pt Li) = _
      rw [p1, bind_ok, l1, bind_ok]; exact r1
    · rw [r3, p3, Matrix.mul_assoc]
      congr 1
      have h1 : (P.mat n n)ᵀ * Li.mat n n * (L.mat n n * P.mat n n) = 1 := by
        rw [Matrix.mul_assoc, ← Matrix.mul_assoc (Li.mat n n), l4, Matrix.one_mul, (perm_mul hp).2]
      calc (P.mat n n)ᵀ * Li.mat n n = (P.mat n n)ᵀ * Li.mat n n * (L.mat n n * P.mat n n * C) := by rw [hC, Matrix.mul_one]
        _ = C := by rw [← Matrix.mul_assoc, h1, Matrix.one_mul]

theorem applyBasis_left {n n' : Nat} {A L P : CMat F} (hA : A.Shape n n') (hL : L.Shape n n) (hP : P.Shape n n) (hl : LowerInv (L.mat n n)) (hp : IsPermMatrix (P.mat n n))
    {d : Bool} {C D : Matrix (Fin n) (Fin n) F} (hC : Chg n d L P C) (hCD : C * D = 1) : ∃ R, applyBasis A L P d false = .ok R ∧ R.Shape n n' ∧ R.mat n n' = D * A.mat n n' := by
  unfold Chg at hC
  cases d with
  | false =>
    rw [if_neg (by simp)] at hC
    obtain ⟨R, r1, r2, r3⟩ := prod3_spec hL hP hA
    refine ⟨R, ?_, r2, ?_⟩
    · show prod3 L P A = _
      exact r1
    · rw [r3]; congr 1
      calc L.mat n n * P.mat n n = L.mat n n * P.mat n n * (C * D) := by rw [hCD, Matrix.mul_one]
        _ = D := by rw [← Matrix.mul_assoc, hC, Matrix.one_mul]
  | true =>
    rw [if_pos rfl] at hC
    obtain ⟨Pt, p1, p2, p3⟩ := transpose_spec hP
    obtain ⟨Li, l1, l2, l3, l4⟩ := lInv_spec hL hl
    obtain ⟨R, r1, r2, r3⟩ := prod3_spec l2 p2 hA
    refine ⟨R, ?_, r2, ?_⟩
    · show (lInv L >>= fun Li => CMat.transpose P >>= fun Pt => prod3 Li Pt A) = _
      rw [l1, bind_ok, p1, bind_ok]; exact r1
    · rw [r3, p3]; congr 1
      have h1 : Li.mat n n * (P.mat n n)ᵀ * C = 1 := by
        rw [hC, Matrix.mul_assoc, ← Matrix.mul_assoc _ (P.mat n n), (perm_mul hp).2, Matrix.one_mul, l4]
      calc Li.mat n n * (P.mat n n)ᵀ = Li.mat n n * (P.mat n n)ᵀ * (C * D) := by rw [hCD, Matrix.mul_one]
        _ = D := by rw [← Matrix.mul_assoc, h1, Matrix.one_mul]

theorem ArrowOK.mat {V : Type} [AddCommGroup V] [Module F V] {W : Submodule F V} {gen : Nat → V} {src tgt : List Nat} {A : CMat F} (h : ArrowOK W gen src tgt A)
    (a : Fin src.length) : gen (src.get a) - ∑ b : Fin tgt.length, A.mat tgt.length src.length b a • gen (tgt.get b) ∈ W := by
  have := h.map a (src.get a) (by simp)
  rw [Finset.sum_range] at this
  convert this using 3
  rename_i b _
  rw [getD_eq_get 0 b.2]; rfl

theorem BarInv.congr (h : BarInv es k Z W N I gen L P d bars m) (hg : ∀ c ∈ I, gen' c = gen c) : BarInv es k Z W N I gen' L P d bars m := by
  have : (fun g : Fin I.length => gen' (I.get g)) = fun g : Fin I.length => gen (I.get g) := funext fun g => hg _ (List.getElem_mem g.2)
  refine ⟨h.shapeL, h.shapeP, h.lower, h.perm, ?_⟩
  rw [this]; exact h.data

theorem BarInv.skip (h : BarInv es k Z W N I gen L P d bars m) (hZ : Z (N + 1) = Z N) (hW : W (N + 1) = W N) : BarInv es k Z W (N + 1) I gen L P d bars m := by
  obtain ⟨iv, β, C, h1, h2, h3, h4, h5, h6, h7, h8⟩ := h.data
  refine ⟨h.shapeL, h.shapeP, h.lower, h.perm, iv, β, C, h1, h2, ?_, h4, h5, ?_, h7, fam_skip h8 h3 hZ hW⟩
  · intro b hb
    have := h3 b hb
    exact ⟨by omega, fun s hs => ⟨(this.2 s hs).1, by have := (this.2 s hs).2; omega⟩⟩
  · intro b
    rw [← h6 b, mem_alive, mem_alive]
    constructor
    · rintro ⟨x, hx, hA⟩
      have hx2 := h3 x (List.mem_of_getElem? hx)
      exact ⟨x, hx, hx2.1, fun s hs => by have := hA.2 s hs; omega⟩
    · rintro ⟨x, hx, hA⟩
      have hx2 := h3 x (List.mem_of_getElem? hx)
      exact ⟨x, hx, by omega, fun s hs => by have := hA.2 s hs; have := (hx2.2 s hs).2; omega⟩

theorem mono_transpose {m n : Nat} {E : Matrix (Fin m) (Fin n) F} (h : Monomial E) : Monomial Eᵀ := ⟨fun i j j' h1 h2 => h.2 j j' i h1 h2, fun i i' j h1 h2 => h.1 j i i' h1 h2⟩

/-- `update_bars` as a transition -/
theorem ubres_trans {n n' : Nat} {G : CMat F} (hG : G.Shape n n') (hmono : Monomial (G.mat n n')) {iv iv' : List Bar} {β β' : Nat → Nat} {bars' : List (ZPair T)} {m' : AMap}
    (hal : ∀ b, b ∈ alive iv N ↔ ∃ a, a < n ∧ β a = b) (hinj : ∀ a a', a < n → a' < n → β a = β a' → a = a') (h : UBRes es k N n' (piv G.cols) β iv bars' m' iv' β') :
    Trans (G.mat n n')ᵀ N iv iv' β β' := by
  refine ⟨h.same, hal, hinj, h.alive, h.inj, ?_, ?_⟩
  · intro t r hQ
    rcases hp : piv G.cols t with _ | r'
    · exact absurd (piv_none hp r) hQ
    · obtain ⟨a, b, c⟩ := piv_some hG hmono t.2 hp
      have : r' = r := by
        by_contra hne
        exact hQ (c r (Ne.symm hne))
      rw [h.old t r' t.2 hp, this]
  · intro t h0
    rcases hp : piv G.cols t with _ | r'
    · exact h.new t t.2 hp
    · obtain ⟨a, b, c⟩ := piv_some hG hmono t.2 hp
      exact absurd (h0 ⟨r', a⟩) b

theorem arrow_entry {s : State F T} {e : Event T} {A : CMat F} (hL : rd s.L k = .ok L) (hP : rd s.P k = .ok P) (hd : rd s.dir k = .ok d) (hb : rd s.bars k = .ok bars)
    (hm : rd s.p2i k = .ok m) (h : BarInv es k Z W N I gen L P d bars m) (he : es[N]? = some e) (hent : e.entry = true)
    (hG : GensBasis (Z (N + 1)) (W (N + 1)) (fun g : Fin I'.length => gen (I'.get g))) (hA : ArrowOK (W (N + 1)) gen I I' A) :
    ∃ L' P' d' bars' m', arrow s e k A = .ok { s with bars := s.bars.set k bars', p2i := s.p2i.set k m', L := s.L.set k L', P := s.P.set k P', dir := s.dir.set k d' } ∧
      BarInv es k Z W (N + 1) I' gen L' P' d' bars' m' := by
  obtain ⟨iv, β, C, h1, h2, h3, h4, h5, h6, h7, h8⟩ := h.data
  obtain ⟨A', a1, a2, a3⟩ := applyBasis_right hA.shape h.shapeL h.shapeP h.lower h.perm h1
  obtain ⟨f, f0, f1, f2, f3, f4, f5, f6, f7, f8, f9⟩ := pleu_core a2
  obtain ⟨Et, e1, e2, e3⟩ := transpose_spec f3
  have hmono : Monomial (Et.mat I.length I'.length) := by rw [e3]; exact mono_transpose f7.1
  obtain ⟨bars', m', iv', β', u1, u2⟩ := updateBars_core he e2 hmono h2 h3 h4 h5 h6 h7
  have hT := ubres_trans e2 hmono h6 h7 u2
  rw [e3, Matrix.transpose_transpose] at hT
  have hlo := BATS.Quiver.UnitLowerTri.lowerInv f6
  have hchg : Chg I'.length true f.L f.P (f.P.mat I'.length I'.length * f.L.mat I'.length I'.length) := by unfold Chg; rw [if_pos rfl]
  obtain ⟨D', hD'⟩ := hchg.inverse hlo f5
  have hdir : isEntry es N = true := by unfold isEntry; rw [he]; simp [hent]
  refine ⟨f.L, f.P, true, bars', m', ?_, f2, f1, hlo, f5, iv', β', _, hchg, u2.pairs, u2.ends, u2.nodup, u2.mem, u2.alive, u2.inj, ?_⟩
  · unfold arrow
    rw [hL, bind_ok, hP, bind_ok, hd, bind_ok, hent, a1, bind_ok, if_pos rfl, f0, bind_ok]
    simp only [hb, hm, bind_ok]
    unfold updateBars
    rw [if_pos hent, e1, bind_ok]
    beta_reduce
    rw [u1]
    rfl
  · exact fam_entry h8 hdir hG (fun a => hA.mat a) (by rw [← a3, f9]) f7 ⟨f8.1, fun i => by rw [f8.2]; exact one_ne_zero⟩ hD' hT

theorem arrow_exit {s : State F T} {e : Event T} {A : CMat F} (hL : rd s.L k = .ok L) (hP : rd s.P k = .ok P) (hd : rd s.dir k = .ok d) (hb : rd s.bars k = .ok bars)
    (hm : rd s.p2i k = .ok m) (h : BarInv es k Z W N I gen L P d bars m) (he : es[N]? = some e) (hent : e.entry = false)
    (hG : GensBasis (Z (N + 1)) (W (N + 1)) (fun g : Fin I'.length => gen (I'.get g))) (hA : ArrowOK (W N) gen I' I A) :
    ∃ L' P' d' bars' m', arrow s e k A = .ok { s with bars := s.bars.set k bars', p2i := s.p2i.set k m', L := s.L.set k L', P := s.P.set k P', dir := s.dir.set k d' } ∧
      BarInv es k Z W (N + 1) I' gen L' P' d' bars' m' := by
  obtain ⟨iv, β, C, h1, h2, h3, h4, h5, h6, h7, h8⟩ := h.data
  obtain ⟨D, hCD⟩ := h1.inverse h.lower h.perm
  obtain ⟨A', a1, a2, a3⟩ := applyBasis_left hA.shape h.shapeL h.shapeP h.lower h.perm h1 hCD
  obtain ⟨f, f0, f1, f2, f3, f4, f5, f6, f7, f8, f9⟩ := uelp_core a2
  obtain ⟨bars', m', iv', β', u1, u2⟩ := updateBars_core he f2 f6.1 h2 h3 h4 h5 h6 h7
  have hT := ubres_trans f2 f6.1 h6 h7 u2
  have hlo := BATS.Quiver.UnitLowerTri.lowerInv f7
  obtain ⟨Li, l1, l2, l3, l4⟩ := lInv_spec f3 hlo
  have hC' : (f.P.mat I'.length I'.length)ᵀ * Li.mat I'.length I'.length * (f.L.mat I'.length I'.length * f.P.mat I'.length I'.length) = 1 := by
    rw [Matrix.mul_assoc, ← Matrix.mul_assoc (Li.mat I'.length I'.length), l4, Matrix.one_mul, (perm_mul f8).2]
  have hchg : Chg I'.length false f.L f.P ((f.P.mat I'.length I'.length)ᵀ * Li.mat I'.length I'.length) := by
    unfold Chg; rw [if_neg (by simp)]; exact mul_eq_one_comm.1 hC'
  have hdir : isEntry es N = false := by unfold isEntry; rw [he]; simp [hent]
  refine ⟨f.L, f.P, false, bars', m', ?_, f3, f4, hlo, f8, iv', β', _, hchg, u2.pairs, u2.ends, u2.nodup, u2.mem, u2.alive, u2.inj, ?_⟩
  · unfold arrow
    rw [hL, bind_ok, hP, bind_ok, hd, bind_ok, hent, a1, bind_ok, if_neg (by simp), f0, bind_ok]
    simp only [hb, hm, bind_ok]
    unfold updateBars
    rw [if_neg (by simp [hent]), bind_ok]
    beta_reduce
    rw [u1]
    rfl
  · exact fam_exit h8 hdir hG (fun a => hA.mat a) hCD (by rw [← a3, f9, Matrix.mul_assoc]) f6 ⟨f5.1, fun i => by rw [f5.2]; exact one_ne_zero⟩ hC' hT

end

end Zigzag
end BATS

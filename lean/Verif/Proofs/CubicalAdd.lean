import Verif.Proofs.CubicalCore
import Verif.Proofs.SimplicialRec

set_option linter.unusedSectionVars false
set_option linter.unusedVariables false
set_option linter.unusedSimpArgs false

/-! # Invariant of the cubical complex; `add` and `add_recursive` -/

namespace BATS
namespace Cub
open Reduction
open SCpx (Cells push push_same push_ne mem_push NewOK growTo_length growTo_getElem? set_getElem?_self idxOf_push_append)

/-- what the stored cubes satisfy -/
structure CellsOK (D : Nat) (cells : Cells) : Prop where
  cube : ∀ d s, s ∈ cells d → IsCube D s ∧ cubeDim s = d
  nodup : ∀ d, (cells d).Nodup
  closed : ∀ d s, s ∈ cells (d + 1) → ∀ p ∈ faces1 s, p.1 ∈ cells d

/-- the trie finds exactly the stored cubes -/
def TrieOK (D : Nat) (t : Trie Nat) (cells : Cells) : Prop :=
  ∀ s : List Nat, s.length = 2 * D → ∀ i : Nat, t.get? s = some i ↔ (cells (cubeDim s))[i]? = some s

/-- face indices and signs of a cube of dimension `d+1` -/
def inds (cells : Cells) (d : Nat) (s : List Nat) : List Nat := (faces1 s).map (fun p => (cells d).idxOf p.1)
def signs (s : List Nat) : List Int := (faces1 s).map Prod.snd

structure DimOK (X : Cub) (cells : Cells) (d : Nat) : Prop where
  nc : X.ncells[d]? = some (cells d).length
  sp : X.spx[d]? = some (cells d).flatten

structure BdOK (X : Cub) (cells : Cells) (d : Nat) : Prop where
  fc : X.faces[d]? = some ((cells (d + 1)).flatMap (inds cells d))
  co : X.coeff[d]? = some ((cells (d + 1)).flatMap signs)

structure SizesOK (X : Cub) (D : Nat) : Prop where
  pos : 0 < D
  dim : X.D = D
  nc : X.ncells.length = D + 1
  sp : X.spx.length = D + 1
  fc : X.faces.length = D
  co : X.coeff.length = D

structure PInv (X : Cub) (D : Nat) (cells : Cells) (d : Nat) : Prop where
  ok : CellsOK D cells
  trie : TrieOK D X.trie cells
  sizes : SizesOK X D
  le : d ≤ D
  dim : ∀ e, e ≤ d → DimOK X cells e
  bd : ∀ e, e < d → BdOK X cells e

structure Inv (X : Cub) (D : Nat) (cells : Cells) : Prop where
  ok : CellsOK D cells
  trie : TrieOK D X.trie cells
  sizes : SizesOK X D
  dim : ∀ e, e ≤ D → DimOK X cells e
  bd : ∀ e, e < D → BdOK X cells e

structure Frame (X X' : Cub) (d : Nat) : Prop where
  nc : ∀ e, d < e → X'.ncells[e]? = X.ncells[e]?
  sp : ∀ e, d < e → X'.spx[e]? = X.spx[e]?
  fc : ∀ e, d ≤ e → X'.faces[e]? = X.faces[e]?
  co : ∀ e, d ≤ e → X'.coeff[e]? = X.coeff[e]?

variable {X : Cub} {D : Nat} {cells : Cells}

theorem Frame.refl (X : Cub) (d : Nat) : Frame X X d := ⟨fun _ _ => rfl, fun _ _ => rfl, fun _ _ => rfl, fun _ _ => rfl⟩

theorem Frame.trans {X Y Z : Cub} {d : Nat} (h : Frame X Y d) (h' : Frame Y Z d) : Frame X Z d :=
  ⟨fun e he => (h'.nc e he).trans (h.nc e he), fun e he => (h'.sp e he).trans (h.sp e he), fun e he => (h'.fc e he).trans (h.fc e he),
    fun e he => (h'.co e he).trans (h.co e he)⟩

theorem CellsOK.top (h : CellsOK D cells) {d : Nat} (hd : D < d) : cells d = [] := by
  rw [List.eq_nil_iff_forall_not_mem]
  intro s hs
  have := h.cube d s hs
  have := cubeDim_le this.1
  omega

theorem CellsOK.face (h : CellsOK D cells) : ∀ (d : Nat) (s t : List Nat), s ∈ cells d → CubeFace D t s → t ∈ cells (cubeDim t) := by
  intro d
  induction d with
  | zero =>
    intro s t hs ht
    have hc := h.cube 0 s hs
    rcases (cubeFace_iff hc.1).1 ht with rfl | ⟨p, hp, _⟩
    · rw [hc.2]; exact hs
    · have := (faces1_valid s (isCube_iff.1 hc.1).2 p hp).2
      omega
  | succ d ih =>
    intro s t hs ht
    have hc := h.cube _ s hs
    rcases (cubeFace_iff hc.1).1 ht with rfl | ⟨p, hp, hpt⟩
    · rw [hc.2]; exact hs
    · exact ih p.1 t (h.closed d s hs p hp) hpt

theorem face_cube {s : List Nat} (h : IsCube D s) {p : List Nat × Int} (hp : p ∈ faces1 s) : IsCube D p.1 ∧ cubeDim p.1 + 1 = cubeDim s := by
  have hs := isCube_iff.1 h
  have := faces1_valid s hs.2 p hp
  exact ⟨isCube_iff.2 ⟨by rw [faces1_len s p hp]; exact hs.1, this.1⟩, this.2⟩

theorem TrieOK.isSome {t : Trie Nat} (h : TrieOK D t cells) {s : List Nat} (hs : s.length = 2 * D) :
    (t.get? s).isSome ↔ s ∈ cells (cubeDim s) := by
  rw [Option.isSome_iff_exists, List.mem_iff_getElem?]
  exact exists_congr (fun i => h s hs i)

theorem TrieOK.get {t : Trie Nat} (h : TrieOK D t cells) {s : List Nat} (hs : s.length = 2 * D) (hm : s ∈ cells (cubeDim s)) :
    t.get? s = some ((cells (cubeDim s)).idxOf s) := by
  rw [h s hs, List.getElem?_eq_getElem (List.idxOf_lt_length_iff.2 hm), List.getElem_idxOf]

theorem TrieOK.none {t : Trie Nat} (h : TrieOK D t cells) {s : List Nat} (hs : s.length = 2 * D) (hm : s ∉ cells (cubeDim s)) : t.get? s = none := by
  rw [← Option.not_isSome_iff_eq_none, h.isSome hs]; exact hm

theorem cellsOK_push (h : CellsOK D cells) {s : List Nat} (hc : IsCube D s) (hn : s ∉ cells (cubeDim s))
    (hf : ∀ p ∈ faces1 s, p.1 ∈ cells (cubeDim s - 1)) : CellsOK D (push cells (cubeDim s) s) := by
  refine ⟨?_, ?_, ?_⟩
  · intro e t ht
    rcases mem_push.1 ht with h1 | ⟨rfl, rfl⟩
    · exact h.cube e t h1
    · exact ⟨hc, rfl⟩
  · intro e
    by_cases he : e = cubeDim s
    · subst he; rw [push_same]
      exact List.nodup_append.2 ⟨h.nodup _, by simp, by intro a ha b hb hab; simp at hb; subst hb; subst hab; exact hn ha⟩
    · rw [push_ne _ _ he]; exact h.nodup e
  · intro e t ht p hp
    rw [mem_push]
    rcases mem_push.1 ht with h1 | ⟨h1, rfl⟩
    · exact Or.inl (h.closed e t h1 p hp)
    · left
      have := hf p hp
      rw [← h1] at this
      exact this

theorem trieOK_push {t : Trie Nat} (h : TrieOK D t cells) (hD : 0 < D) {s : List Nat} (hl : s.length = 2 * D) (hn : s ∉ cells (cubeDim s)) :
    TrieOK D (t.insert s (cells (cubeDim s)).length) (push cells (cubeDim s) s) := by
  intro q hq i
  rw [Trie.get?_insert]
  by_cases h1 : q = s
  · subst h1
    rw [if_pos rfl, push_same]
    simp only [Option.some.injEq]
    constructor
    · rintro rfl; simp
    · intro h2
      by_contra hne
      rcases Nat.lt_or_ge i (cells (cubeDim q)).length with h3 | h3
      · rw [List.getElem?_append_left h3] at h2
        exact hn (List.mem_of_getElem? h2)
      · rw [List.getElem?_append_right h3] at h2
        have : i - (cells (cubeDim q)).length ≠ 0 := by omega
        obtain ⟨m, hm⟩ := Nat.exists_eq_succ_of_ne_zero this
        rw [hm] at h2; simp at h2
  · rw [if_neg h1, if_neg (fun h2 : q <+: s => h1 (h2.eq_of_length (by omega))), h q hq i]
    by_cases he : cubeDim q = cubeDim s
    · rw [he, push_same]
      rcases Nat.lt_or_ge i (cells (cubeDim s)).length with h3 | h3
      · rw [List.getElem?_append_left h3]
      · rw [List.getElem?_append_right h3, List.getElem?_eq_none h3]
        constructor
        · intro h4; cases h4
        · intro h4
          have := List.mem_of_getElem? h4
          simp at this; exact absurd this h1
    · rw [push_ne _ _ he]

theorem BdOK.ext {X' : Cub} {cells' : Cells} {d : Nat} (hc : CellsOK D cells) (h : BdOK X cells d) (h1 : cells' (d + 1) = cells (d + 1))
    (h2 : cells d <+: cells' d) (h3 : X'.faces[d]? = X.faces[d]?) (h4 : X'.coeff[d]? = X.coeff[d]?) : BdOK X' cells' d := by
  refine ⟨?_, by rw [h4, h.co, h1]⟩
  rw [h3, h.fc, h1]
  congr 1
  apply List.flatMap_congr
  intro s hs
  unfold inds
  apply List.map_congr_left
  intro p hp
  rw [idxOf_push_append h2 (hc.closed d s hs p hp)]

theorem Inv.pinv (h : Inv X D cells) {d : Nat} (hd : d ≤ D) : PInv X D cells d :=
  ⟨h.ok, h.trie, h.sizes, hd, fun e he => h.dim e (by omega), fun e he => h.bd e (by omega)⟩

theorem Inv.of_pinv {X' : Cub} {cells' : Cells} {d : Nat} (h : Inv X D cells) (hp : PInv X' D cells' d) (fr : Frame X X' d)
    (hc : ∀ e, d < e → cells' e = cells e) (hpre : cells d <+: cells' d) : Inv X' D cells' := by
  refine ⟨hp.ok, hp.trie, hp.sizes, ?_, ?_⟩
  · intro e he
    by_cases hed : e ≤ d
    · exact hp.dim e hed
    · have := h.dim e he
      exact ⟨by rw [fr.nc e (by omega), hc e (by omega)]; exact this.nc, by rw [fr.sp e (by omega), hc e (by omega)]; exact this.sp⟩
  · intro e he
    by_cases hed : e < d
    · exact hp.bd e hed
    · refine (h.bd e he).ext h.ok (hc _ (by omega)) ?_ (fr.fc e (by omega)) (fr.co e (by omega))
      by_cases h' : e = d
      · subst h'; exact hpre
      · rw [hc e (by omega)]

theorem PInv.congr {X' : Cub} {d : Nat} (h : PInv X D cells d) (ht : X'.trie = X.trie) (hs : SizesOK X' D)
    (hn : ∀ e, e ≤ d → X'.ncells[e]? = X.ncells[e]?) (hsp : ∀ e, e ≤ d → X'.spx[e]? = X.spx[e]?)
    (hf : ∀ e, e < d → X'.faces[e]? = X.faces[e]?) (hc : ∀ e, e < d → X'.coeff[e]? = X.coeff[e]?) : PInv X' D cells d := by
  refine ⟨h.ok, by rw [ht]; exact h.trie, hs, h.le, ?_, ?_⟩
  · intro e he
    exact ⟨by rw [hn e he]; exact (h.dim e he).nc, by rw [hsp e he]; exact (h.dim e he).sp⟩
  · intro e he
    exact (h.bd e he).ext h.ok rfl List.prefix_rfl (hf e he) (hc e he)

/-- storing a new cube of dimension `d`, whose face block is already stored -/
theorem finish_spec {Y : Cub} (ok : CellsOK D cells) (trie : TrieOK D Y.trie cells) (sizes : SizesOK Y D) {d : Nat} (hd : d ≤ D)
    (dim : ∀ e, e ≤ d → DimOK Y cells e) (bd : ∀ e, e + 1 < d → BdOK Y cells e) {s : List Nat} (hc : IsCube D s) (hdim : cubeDim s = d)
    (hn : s ∉ cells d) (hf : ∀ p ∈ faces1 s, p.1 ∈ cells (d - 1))
    (hb : ∀ e, d = e + 1 → Y.faces[e]? = some ((cells d).flatMap (inds cells e) ++ inds cells e s) ∧
      Y.coeff[e]? = some ((cells d).flatMap signs ++ signs s)) :
    ∃ Z, finish Y s d = .ok (Z, (cells d).length) ∧ PInv Z D (push cells d s) d ∧ Frame Y Z d ∧ Z.faces = Y.faces ∧ Z.coeff = Y.coeff := by
  subst hdim
  have h1 := dim _ le_rfl
  have l1 := (List.getElem?_eq_some_iff.1 h1.nc).1
  have l2 := (List.getElem?_eq_some_iff.1 h1.sp).1
  refine ⟨⟨Y.spx.set (cubeDim s) ((cells (cubeDim s)).flatten ++ s), Y.faces, Y.coeff,
    Y.ncells.set (cubeDim s) ((cells (cubeDim s)).length + 1), Y.trie.insert s (cells (cubeDim s)).length, Y.D⟩, ?_, ?_, ?_, ?_, ?_⟩
  · unfold finish
    rw [rd_some h1.nc, bind_ok, wr_lt _ l1, bind_ok, rd_some h1.sp, bind_ok, wr_lt _ l2, bind_ok]
    rfl
  · refine ⟨cellsOK_push ok hc hn hf, trieOK_push trie sizes.pos hc.1 hn, ?_, hd, ?_, ?_⟩
    · exact ⟨sizes.pos, sizes.dim, by simpa using sizes.nc, by simpa using sizes.sp, sizes.fc, sizes.co⟩
    · intro e he
      by_cases hed : e = cubeDim s
      · subst hed
        exact ⟨by simp [push_same, l1], by simp [push_same, l2]⟩
      · have := dim e he
        exact ⟨by simp only; rw [List.getElem?_set_ne (Ne.symm hed), push_ne _ _ hed]; exact this.nc,
          by simp only; rw [List.getElem?_set_ne (Ne.symm hed), push_ne _ _ hed]; exact this.sp⟩
    · intro e he
      by_cases hed : e + 1 = cubeDim s
      · obtain ⟨b1, b2⟩ := hb e hed.symm
        have ei : inds (push cells (cubeDim s) s) e = inds cells e := by
          funext t; unfold inds; rw [push_ne _ _ (by omega)]
        refine ⟨?_, ?_⟩
        · show Y.faces[e]? = _
          rw [b1, ei, hed, push_same, List.flatMap_append]; simp
        · show Y.coeff[e]? = _
          rw [b2, hed, push_same, List.flatMap_append]; simp
      · exact (bd e (by omega)).ext ok (push_ne _ _ (by omega)) (by rw [push_ne _ _ (by omega)]) rfl rfl
  · exact ⟨fun e he => by simp only; rw [List.getElem?_set_ne (by omega)], fun e he => by simp only; rw [List.getElem?_set_ne (by omega)],
      fun e he => rfl, fun e he => rfl⟩
  · rfl
  · rfl

/-! ### `add` -/

theorem faceLoop_ok {t : Trie Nat} (ht : TrieOK D t cells) {d : Nat} : ∀ (n : Nat) (pre rest : List Nat), rest.length = 2 * n → ∀ (c : Int),
    (∀ p ∈ facesOf pre c rest, IsCube D p.1 ∧ cubeDim p.1 = d ∧ p.1 ∈ cells d) → ∀ fs cs,
    faceLoop t (pre ++ rest) n pre.length c fs cs = .ok (fs ++ (facesOf pre c rest).map (fun p => (cells d).idxOf p.1),
      cs ++ (facesOf pre c rest).map Prod.snd, true) := by
  intro n
  induction n with
  | zero =>
    intro pre rest hr c _ fs cs
    have : rest = [] := by simpa using hr
    subst this
    simp [faceLoop, facesOf]
  | succ n ih =>
    intro pre rest hr c hL fs cs
    obtain ⟨a, b, rest, rfl⟩ := isCube_split hr
    have hr' : rest.length = 2 * n := by simp at hr; omega
    have ih' := ih (pre ++ [a] ++ [b]) rest hr'
    have e1 : pre ++ [a] ++ [b] ++ rest = pre ++ a :: b :: rest := by simp
    have e2 : (pre ++ [a] ++ [b]).length = pre.length + 2 := by simp
    rw [e1, e2] at ih'
    rw [faceLoop, rd_pre, bind_ok, rd_pre1, bind_ok]
    unfold facesOf at hL ⊢
    by_cases hab : a = b
    · subst hab
      simp only [if_true] at hL ⊢
      exact ih' c hL fs cs
    · rw [if_neg hab] at hL
      rw [if_neg hab, if_neg hab, set_pre, set_pre1]
      obtain ⟨c1, c2, c3⟩ := hL (pre ++ b :: b :: rest, c) (by simp)
      obtain ⟨d1, d2, d3⟩ := hL (pre ++ a :: a :: rest, -c) (by simp)
      simp only at c1 c2 c3 d1 d2 d3
      rw [ht.get c1.1 (by rw [c2]; exact c3), ht.get d1.1 (by rw [d2]; exact d3)]
      simp only
      rw [ih' (-c) (fun p hp => hL p (List.mem_cons_of_mem _ (List.mem_cons_of_mem _ hp))), c2, d2]
      simp

theorem faceLoop_fail {t : Trie Nat} (ht : TrieOK D t cells) {d : Nat} : ∀ (n : Nat) (pre rest : List Nat), rest.length = 2 * n → ∀ (c : Int),
    (∀ p ∈ facesOf pre c rest, IsCube D p.1 ∧ cubeDim p.1 = d) → (∃ p ∈ facesOf pre c rest, p.1 ∉ cells d) → ∀ fs cs,
    ∃ a b, faceLoop t (pre ++ rest) n pre.length c fs cs = .ok (fs ++ a, cs ++ b, false) := by
  intro n
  induction n with
  | zero =>
    intro pre rest hr c _ hex
    have : rest = [] := by simpa using hr
    subst this
    obtain ⟨p, hp, _⟩ := hex
    simp [facesOf] at hp
  | succ n ih =>
    intro pre rest hr c hL hex fs cs
    obtain ⟨a, b, rest, rfl⟩ := isCube_split hr
    have hr' : rest.length = 2 * n := by simp at hr; omega
    have ih' := ih (pre ++ [a] ++ [b]) rest hr'
    have e1 : pre ++ [a] ++ [b] ++ rest = pre ++ a :: b :: rest := by simp
    have e2 : (pre ++ [a] ++ [b]).length = pre.length + 2 := by simp
    rw [e1, e2] at ih'
    rw [faceLoop, rd_pre, bind_ok, rd_pre1, bind_ok]
    unfold facesOf at hL hex
    by_cases hab : a = b
    · subst hab
      simp only [if_true] at hL hex ⊢
      exact ih' c hL hex fs cs
    · rw [if_neg hab] at hL hex
      rw [if_neg hab, set_pre, set_pre1]
      obtain ⟨c1, c2⟩ := hL (pre ++ b :: b :: rest, c) (by simp)
      obtain ⟨d1, d2⟩ := hL (pre ++ a :: a :: rest, -c) (by simp)
      simp only at c1 c2 d1 d2
      by_cases hc : pre ++ b :: b :: rest ∈ cells d
      · rw [ht.get c1.1 (by rw [c2]; exact hc)]
        simp only
        by_cases hd : pre ++ a :: a :: rest ∈ cells d
        · rw [ht.get d1.1 (by rw [d2]; exact hd)]
          simp only
          obtain ⟨p, hp, hpn⟩ := hex
          simp only [List.mem_cons] at hp
          have hp' : p ∈ facesOf (pre ++ [a] ++ [b]) (-c) rest := by
            rcases hp with rfl | rfl | hp
            · exact absurd hc hpn
            · exact absurd hd hpn
            · exact hp
          obtain ⟨x, y, e⟩ := ih' (-c) (fun q hq => hL q (List.mem_cons_of_mem _ (List.mem_cons_of_mem _ hq))) ⟨p, hp', hpn⟩ _ _
          rw [e]
          exact ⟨[_] ++ [_] ++ x, [_] ++ [_] ++ y, by simp only [List.append_assoc]; rfl⟩
        · rw [ht.none d1.1 (by rw [d2]; exact hd)]
          exact ⟨[_], [_], rfl⟩
      · rw [ht.none c1.1 (by rw [c2]; exact hc)]
        exact ⟨[], [], by simp⟩

/-- all faces of codimension one are stored -/
def FacesIn (cells : Cells) (s : List Nat) : Prop := ∀ p ∈ faces1 s, p.1 ∈ cells (cubeDim s - 1)

theorem faces1_of_zero {s : List Nat} (h : IsCube D s) (h0 : cubeDim s = 0) : faces1 s = [] := by
  have := faces1_count s (isCube_iff.1 h).2
  rw [h0] at this
  exact List.length_eq_zero_iff.1 (by omega)

theorem addUnsafe_ok (h : Inv X D cells) {s : List Nat} (hc : IsCube D s) (hs : s ∉ cells (cubeDim s)) (hf : FacesIn cells s) :
    ∃ Y, addUnsafe X s = .ok (Y, some (cells (cubeDim s)).length) ∧ Inv Y D (push cells (cubeDim s) s) := by
  have hle := cubeDim_le hc
  unfold addUnsafe
  simp only
  by_cases h0 : 0 < cubeDim s
  · rw [if_pos h0]
    obtain ⟨d, hd⟩ : ∃ d, cubeDim s = d + 1 := ⟨cubeDim s - 1, by omega⟩
    have hf' : ∀ p ∈ faces1 s, p.1 ∈ cells d := by
      intro p hp; have := hf p hp; rw [hd, Nat.add_sub_cancel] at this; exact this
    rw [hd] at hs ⊢
    rw [Nat.add_sub_cancel]
    have hb := h.bd d (by omega)
    have l1 := (List.getElem?_eq_some_iff.1 hb.fc).1
    have l2 := (List.getElem?_eq_some_iff.1 hb.co).1
    have hloop := faceLoop_ok h.trie (d := d) D [] s hc.1 1 (fun p hp => by
      have := face_cube hc hp
      exact ⟨this.1, by omega, hf' p hp⟩) ((cells (d + 1)).flatMap (inds cells d)) ((cells (d + 1)).flatMap signs)
    simp only [List.nil_append, List.length_nil] at hloop
    have hD' := h.sizes.dim
    conv at hloop => lhs; arg 3; rw [← hD']
    rw [rd_some hb.fc, bind_ok, rd_some hb.co, bind_ok, hloop, bind_ok]
    simp only [if_true]
    obtain ⟨Z, z1, z2, z3, z4, z5⟩ := finish_spec (Y := { X with faces := X.faces.set d ((cells (d + 1)).flatMap (inds cells d) ++ inds cells d s), coeff := X.coeff.set d ((cells (d + 1)).flatMap signs ++ signs s) }) h.ok h.trie
      ⟨h.sizes.pos, h.sizes.dim, h.sizes.nc, h.sizes.sp, by simpa using h.sizes.fc, by simpa using h.sizes.co⟩ (d := d + 1) (by omega)
      (fun e he => ⟨(h.dim e (by omega)).nc, (h.dim e (by omega)).sp⟩)
      (fun e he => (h.bd e (by omega)).ext h.ok rfl List.prefix_rfl (List.getElem?_set_ne (by omega)) (List.getElem?_set_ne (by omega)))
      hc hd hs hf' (by
        intro e he
        have : e = d := by omega
        subst this
        exact ⟨by simp [l1], by simp [l2]⟩)
    refine ⟨Z, ?_, ?_⟩
    · show (finish _ s (d + 1) >>= fun Y => pure (Y.1, some Y.2)) = _
      exact (congrArg (fun r : Res (Cub × Nat) => r >>= fun Y => pure (Y.1, some Y.2)) z1)
    · refine h.of_pinv z2 ⟨z3.nc, z3.sp, fun e he => ?_, fun e he => ?_⟩ (fun e he => push_ne _ _ (by omega)) (by rw [push_same]; exact List.prefix_append _ _)
      · rw [z4]; exact List.getElem?_set_ne (by omega)
      · rw [z5]; exact List.getElem?_set_ne (by omega)
  · rw [if_neg h0]
    have hd : cubeDim s = 0 := by omega
    rw [hd] at hs ⊢
    obtain ⟨Z, z1, z2, z3, z4, z5⟩ := finish_spec h.ok h.trie h.sizes (d := 0) (by omega) (fun e he => h.dim e (by omega)) (fun e he => by omega)
      hc hd hs (by rw [faces1_of_zero hc hd]; simp) (by intro e he; omega)
    rw [z1]
    exact ⟨Z, rfl, h.of_pinv z2 z3 (fun e he => push_ne _ _ (by omega)) (by rw [push_same]; exact List.prefix_append _ _)⟩

theorem flatMap_len {l : List (List Nat)} {d : Nat} : ((l.flatMap (inds cells d)).length = (l.flatMap signs).length) := by
  induction l with
  | nil => rfl
  | cons a l ih => simp only [List.flatMap_cons, List.length_append, ih]; simp [inds, signs]

theorem addUnsafe_fail (h : Inv X D cells) {s : List Nat} (hc : IsCube D s) (hf : ¬ FacesIn cells s) : addUnsafe X s = .ok (X, none) := by
  have hle := cubeDim_le hc
  have h0 : 0 < cubeDim s := by
    by_contra h0
    exact hf (by intro p hp; rw [faces1_of_zero hc (by omega)] at hp; simp at hp)
  obtain ⟨d, hd⟩ : ∃ d, cubeDim s = d + 1 := ⟨cubeDim s - 1, by omega⟩
  unfold FacesIn at hf
  push Not at hf
  rw [hd, Nat.add_sub_cancel] at hf
  unfold addUnsafe
  simp only
  rw [if_pos h0, hd, Nat.add_sub_cancel]
  have hb := h.bd d (by omega)
  obtain ⟨a, b, hloop⟩ := faceLoop_fail h.trie (d := d) D [] s hc.1 1 (fun p hp => by
    have := face_cube hc hp
    exact ⟨this.1, by omega⟩) hf ((cells (d + 1)).flatMap (inds cells d)) ((cells (d + 1)).flatMap signs)
  simp only [List.nil_append, List.length_nil] at hloop
  have hD' := h.sizes.dim
  conv at hloop => lhs; arg 3; rw [← hD']
  rw [rd_some hb.fc, bind_ok, rd_some hb.co, bind_ok, hloop, bind_ok]
  simp only [Bool.false_eq_true, if_false]
  rw [List.take_left, flatMap_len, List.take_left, set_getElem?_self hb.fc, set_getElem?_self hb.co]
  rfl

/-! ### `add_recursive` -/

/-- effect of adding the faces in `L` -/
structure Added (D : Nat) (cells cells' : Cells) (d : Nat) (L : List (List Nat)) (new : List (Nat × Nat)) : Prop where
  above : ∀ e, d < e → cells' e = cells e
  ext : ∀ e, cells e <+: cells' e
  mem : ∀ e t, t ∈ cells' e ↔ t ∈ cells e ∨ (cubeDim t = e ∧ ∃ p ∈ L, CubeFace D t p)
  new : NewOK new cells cells'

theorem Added.refl (D : Nat) (cells : Cells) (d : Nat) : Added D cells cells d [] [] :=
  ⟨fun _ _ => rfl, fun _ => List.prefix_rfl, fun e t => by simp, NewOK.refl _⟩

theorem Added.trans {c0 c1 c2 : Cells} {d : Nat} {L1 L2 : List (List Nat)} {n1 n2 : List (Nat × Nat)} (h : Added D c0 c1 d L1 n1)
    (h' : Added D c1 c2 d L2 n2) : Added D c0 c2 d (L1 ++ L2) (n1 ++ n2) := by
  refine ⟨fun e he => (h'.above e he).trans (h.above e he), fun e => (h.ext e).trans (h'.ext e), ?_, h.new.trans h'.new h.ext h'.ext⟩
  intro e t
  rw [h'.mem, h.mem]
  constructor
  · rintro ((h1 | ⟨h1, p, hp, h2⟩) | ⟨h1, p, hp, h2⟩)
    · exact Or.inl h1
    · exact Or.inr ⟨h1, p, by simp [hp], h2⟩
    · exact Or.inr ⟨h1, p, by simp [hp], h2⟩
  · rintro (h1 | ⟨h1, p, hp, h2⟩)
    · exact Or.inl (Or.inl h1)
    · rcases List.mem_append.1 hp with hp | hp
      · exact Or.inl (Or.inr ⟨h1, p, hp, h2⟩)
      · exact Or.inr ⟨h1, p, hp, h2⟩

def RecOK (D d : Nat) : Prop := ∀ X cells s ci, PInv X D cells d → IsCube D s → cubeDim s = d → s ∉ cells d →
  ∃ X' cells' new, addRec d X s ci = .ok (X', (cells d).length, ci ++ new) ∧ PInv X' D cells' d ∧ Frame X X' d ∧
    Added D cells cells' d [s] new ∧ cells' d = cells d ++ [s] ∧ new.getLast? = some (d, (cells d).length)

theorem push_prefix (cells : Cells) (d : Nat) (s : List Nat) (e : Nat) : cells e <+: push cells d s e := by
  by_cases he : e = d
  · subst he; rw [push_same]; exact List.prefix_append _ _
  · rw [push_ne _ _ he]

theorem recOK_zero (D : Nat) : RecOK D 0 := by
  intro X cells s ci h hc hdim hs
  obtain ⟨Z, z1, z2, z3, z4, z5⟩ := finish_spec h.ok h.trie h.sizes (d := 0) (by omega) (fun e he => h.dim e he) (fun e he => by omega)
    hc hdim hs (by rw [faces1_of_zero hc hdim]; simp) (by intro e he; omega)
  refine ⟨Z, push cells 0 s, [(0, (cells 0).length)], ?_, z2, z3, ?_, push_same _ _ _, rfl⟩
  · rw [addRec, z1]; rfl
  · refine ⟨fun e he => push_ne _ _ (by omega), push_prefix _ _ _, ?_, NewOK.push _ _ _⟩
    intro e t
    rw [mem_push]
    constructor
    · rintro (h | ⟨rfl, rfl⟩)
      · exact Or.inl h
      · exact Or.inr ⟨hdim, t, by simp, cubeFace_refl hc⟩
    · rintro (h | ⟨h1, p, hp, h2⟩)
      · exact Or.inl h
      · rw [List.mem_singleton] at hp; subst hp
        rcases (cubeFace_iff hc).1 h2 with rfl | ⟨p, hp, _⟩
        · exact Or.inr ⟨by omega, rfl⟩
        · rw [faces1_of_zero hc hdim] at hp; simp at hp

/-- one face: find or add it and store its index -/
theorem faceStep {d : Nat} (hrec : RecOK D d) {f : List Nat} (hf : IsCube D f) (hfd : cubeDim f = d) (c : Int) (X : Cub) (cells : Cells)
    (ci : List (Nat × Nat)) {fs : List Nat} {cs : List Int} (h : PInv X D cells d) (hfs : X.faces[d]? = some fs) (hcs : X.coeff[d]? = some cs) :
    ∃ X1 X2 cells' ind new, findOrAdd (addRec d) X f ci = .ok (X1, ind, ci ++ new) ∧ X1.pushFace (d + 1) ind c = .ok X2 ∧ PInv X2 D cells' d ∧
      X2.faces[d]? = some (fs ++ [(cells' d).idxOf f]) ∧ X2.coeff[d]? = some (cs ++ [c]) ∧
      (∀ e, d < e → X2.ncells[e]? = X.ncells[e]? ∧ X2.spx[e]? = X.spx[e]? ∧ X2.faces[e]? = X.faces[e]? ∧ X2.coeff[e]? = X.coeff[e]?) ∧
      Added D cells cells' d [f] new ∧ f ∈ cells' d := by
  have step : ∃ X1 cells1 ind new1, findOrAdd (addRec d) X f ci = .ok (X1, ind, ci ++ new1) ∧ PInv X1 D cells1 d ∧ Frame X X1 d ∧
      Added D cells cells1 d [f] new1 ∧ ind = (cells1 d).idxOf f := by
    by_cases hm : f ∈ cells d
    · have hg := h.trie.get hf.1 (by rw [hfd]; exact hm)
      rw [hfd] at hg
      refine ⟨X, cells, _, [], by unfold findOrAdd; rw [hg]; simp, h, Frame.refl _ _, ⟨fun _ _ => rfl, fun _ => List.prefix_rfl, ?_, NewOK.refl _⟩, rfl⟩
      intro e t
      constructor
      · exact Or.inl
      · rintro (h1 | ⟨h1, p, hp, h2⟩)
        · exact h1
        · rw [List.mem_singleton] at hp; subst hp
          have := h.ok.face d _ t hm h2
          rw [h1] at this; exact this
    · have hg := h.trie.none hf.1 (by rw [hfd]; exact hm)
      obtain ⟨X1, cells1, new1, g1, g2, g3, g4, g5, _⟩ := hrec X cells f ci h hf hfd hm
      refine ⟨X1, cells1, _, new1, by unfold findOrAdd; rw [hg]; exact g1, g2, g3, g4, ?_⟩
      rw [g5, List.idxOf_append_of_notMem hm]; simp
  obtain ⟨X1, cells1, ind, new1, e1, p1, fr, ad, hind⟩ := step
  have hf1 : X1.faces[d]? = some fs := by rw [fr.fc d le_rfl, hfs]
  have hc1 : X1.coeff[d]? = some cs := by rw [fr.co d le_rfl, hcs]
  have hfl := (List.getElem?_eq_some_iff.1 hf1).1
  have hcl := (List.getElem?_eq_some_iff.1 hc1).1
  refine ⟨X1, { X1 with faces := X1.faces.set d (fs ++ [ind]), coeff := X1.coeff.set d (cs ++ [c]) }, cells1, ind, new1, e1, ?_, ?_, ?_, ?_, ?_, ad, ?_⟩
  · unfold pushFace
    rw [Nat.add_sub_cancel, rd_some hf1, bind_ok, rd_some hc1, bind_ok]; rfl
  · refine p1.congr rfl ⟨p1.sizes.pos, p1.sizes.dim, p1.sizes.nc, p1.sizes.sp, by simpa using p1.sizes.fc, by simpa using p1.sizes.co⟩
      (fun _ _ => rfl) (fun _ _ => rfl) (fun e he => List.getElem?_set_ne (by omega)) (fun e he => List.getElem?_set_ne (by omega))
  · simp [hfl, hind]
  · simp [hcl]
  · intro e he
    exact ⟨fr.nc e he, fr.sp e he, by simp only; rw [List.getElem?_set_ne (by omega)]; exact fr.fc e (by omega),
      by simp only; rw [List.getElem?_set_ne (by omega)]; exact fr.co e (by omega)⟩
  · exact (ad.mem d f).2 (Or.inr ⟨hfd, f, by simp, cubeFace_refl hf⟩)

theorem recFaces_spec {d : Nat} (hrec : RecOK D d) : ∀ (n : Nat) (pre rest : List Nat), rest.length = 2 * n → ∀ (c : Int),
    (∀ p ∈ facesOf pre c rest, IsCube D p.1 ∧ cubeDim p.1 = d) → ∀ X cells ci fs cs, PInv X D cells d →
    X.faces[d]? = some fs → X.coeff[d]? = some cs →
    ∃ X' cells' new, recFaces (addRec d) (pre ++ rest) (d + 1) n pre.length c X ci = .ok (X', ci ++ new) ∧ PInv X' D cells' d ∧
      X'.faces[d]? = some (fs ++ (facesOf pre c rest).map (fun p => (cells' d).idxOf p.1)) ∧
      X'.coeff[d]? = some (cs ++ (facesOf pre c rest).map Prod.snd) ∧
      (∀ e, d < e → X'.ncells[e]? = X.ncells[e]? ∧ X'.spx[e]? = X.spx[e]? ∧ X'.faces[e]? = X.faces[e]? ∧ X'.coeff[e]? = X.coeff[e]?) ∧
      Added D cells cells' d ((facesOf pre c rest).map Prod.fst) new ∧ ∀ p ∈ facesOf pre c rest, p.1 ∈ cells' d := by
  intro n
  induction n with
  | zero =>
    intro pre rest hr c _ X cells ci fs cs h hf hc
    have : rest = [] := by simpa using hr
    subst this
    exact ⟨X, cells, [], by simp [recFaces], h, by simp [hf, facesOf], by simp [hc, facesOf], fun e _ => ⟨rfl, rfl, rfl, rfl⟩,
      Added.refl _ _ _, by simp [facesOf]⟩
  | succ n ih =>
    intro pre rest hr c hL X cells ci fs cs h hfs hcs
    obtain ⟨a, b, rest, rfl⟩ := isCube_split hr
    have hr' : rest.length = 2 * n := by simp at hr; omega
    have ih' := ih (pre ++ [a] ++ [b]) rest hr'
    have e1 : pre ++ [a] ++ [b] ++ rest = pre ++ a :: b :: rest := by simp
    have e2 : (pre ++ [a] ++ [b]).length = pre.length + 2 := by simp
    rw [e1, e2] at ih'
    rw [recFaces, rd_pre, bind_ok, rd_pre1, bind_ok]
    unfold facesOf at hL ⊢
    by_cases hab : a = b
    · subst hab
      simp only [if_true] at hL ⊢
      exact ih' c hL X cells ci fs cs h hfs hcs
    · rw [if_neg hab] at hL
      simp only [if_neg hab]
      rw [set_pre, set_pre1]
      obtain ⟨c1, c2⟩ := hL (pre ++ b :: b :: rest, c) (by simp)
      obtain ⟨d1, d2⟩ := hL (pre ++ a :: a :: rest, -c) (by simp)
      obtain ⟨X1, X2, cells1, i1, new1, s1, s2, s3, s4, s5, s6, s7, s8⟩ := faceStep hrec c1 c2 c X cells ci h hfs hcs
      obtain ⟨X3, X4, cells2, i2, new2, t1, t2, t3, t4, t5, t6, t7, t8⟩ := faceStep hrec d1 d2 (-c) X2 cells1 (ci ++ new1) s3 s4 s5
      obtain ⟨X5, cells3, new3, q1, q2, q3, q4, q5, q6, q7⟩ := ih' (-c) (fun p hp => hL p (List.mem_cons_of_mem _ (List.mem_cons_of_mem _ hp))) X4 cells2 (ci ++ new1 ++ new2) _ _ t3 t4 t5
      have k1 : (cells3 d).idxOf (pre ++ b :: b :: rest) = (cells1 d).idxOf (pre ++ b :: b :: rest) :=
        idxOf_push_append ((t7.ext d).trans (q6.ext d)) s8
      have k2 : (cells3 d).idxOf (pre ++ a :: a :: rest) = (cells2 d).idxOf (pre ++ a :: a :: rest) := idxOf_push_append (q6.ext d) t8
      refine ⟨X5, cells3, new1 ++ new2 ++ new3, ?_, q2, ?_, ?_, ?_, ?_, ?_⟩
      · rw [s1, bind_ok]
        simp only
        rw [s2, bind_ok, t1, bind_ok]
        simp only
        rw [t2, bind_ok, q1]; simp
      · rw [q3]; simp [k1, k2]
      · rw [q4]; simp
      · intro e he
        obtain ⟨x1, x2, x3, x4⟩ := q5 e he
        obtain ⟨y1, y2, y3, y4⟩ := t6 e he
        obtain ⟨w1, w2, w3, w4⟩ := s6 e he
        exact ⟨x1.trans (y1.trans w1), x2.trans (y2.trans w2), x3.trans (y3.trans w3), x4.trans (y4.trans w4)⟩
      · have := (s7.trans t7).trans q6
        simpa using this
      · intro p hp
        simp only [List.mem_cons] at hp
        rcases hp with rfl | rfl | hp
        · exact (q6.ext d).subset ((t7.ext d).subset s8)
        · exact (q6.ext d).subset t8
        · exact q7 p hp

theorem recOK_succ {d : Nat} (hrec : RecOK D d) : RecOK D (d + 1) := by
  intro X cells s ci h hc hdim hs
  have hb := h.bd d (by omega)
  have hle := h.le
  have p0 : PInv X D cells d := ⟨h.ok, h.trie, h.sizes, by omega, fun e he => h.dim e (by omega), fun e he => h.bd e (by omega)⟩
  obtain ⟨Y, cells1, new, q1, q2, q3, q4, q5, q6, q7⟩ := recFaces_spec hrec D [] s hc.1 1 (fun p hp => by
    have := face_cube hc hp
    exact ⟨this.1, by omega⟩) X cells ci _ _ p0 hb.fc hb.co
  simp only [List.nil_append, List.length_nil] at q1
  have hab : cells1 (d + 1) = cells (d + 1) := q6.above _ (by omega)
  obtain ⟨n1, n2, n3, n4⟩ := q5 (d + 1) (by omega)
  obtain ⟨Z, z1, z2, z3, z4, z5⟩ := finish_spec q2.ok q2.trie q2.sizes (d := d + 1) h.le (by
      intro e he
      by_cases h' : e ≤ d
      · exact q2.dim e h'
      · have : e = d + 1 := by omega
        subst this
        exact ⟨by rw [n1, hab]; exact (h.dim _ le_rfl).nc, by rw [n2, hab]; exact (h.dim _ le_rfl).sp⟩) (fun e he => q2.bd e (by omega)) hc hdim
      (by rw [hab]; exact hs) q7 (by
      intro e he
      have : e = d := by omega
      subst this
      refine ⟨?_, ?_⟩
      · rw [q3, hab]
        congr 2
        apply List.flatMap_congr
        intro t ht
        unfold inds
        apply List.map_congr_left
        intro p hp
        rw [idxOf_push_append (q6.ext e) (h.ok.closed e t ht p hp)]
      · rw [q4, hab]; rfl)
  rw [hab] at z1
  refine ⟨Z, push cells1 (d + 1) s, new ++ [(d + 1, (cells (d + 1)).length)], ?_, z2, ?_, ?_, by rw [push_same, hab], by simp⟩
  · rw [addRec, h.sizes.dim, q1, bind_ok]
    simp only
    rw [z1, bind_ok]
    simp only [List.append_assoc]; rfl
  · refine ⟨fun e he => by rw [z3.nc e he]; exact (q5 e (by omega)).1, fun e he => by rw [z3.sp e he]; exact (q5 e (by omega)).2.1,
      fun e he => by rw [z4]; exact (q5 e (by omega)).2.2.1, fun e he => by rw [z5]; exact (q5 e (by omega)).2.2.2⟩
  · refine ⟨fun e he => by rw [push_ne _ _ (by omega), q6.above e (by omega)], fun e => (q6.ext e).trans (push_prefix _ _ _ e), ?_, ?_⟩
    · intro e t
      rw [mem_push, q6.mem]
      constructor
      · rintro ((h1 | ⟨h1, p, hp, h2⟩) | ⟨rfl, rfl⟩)
        · exact Or.inl h1
        · obtain ⟨p', hp', rfl⟩ := List.mem_map.1 hp
          exact Or.inr ⟨h1, s, by simp, (cubeFace_iff hc).2 (Or.inr ⟨p', hp', h2⟩)⟩
        · exact Or.inr ⟨hdim, t, by simp, cubeFace_refl hc⟩
      · rintro (h1 | ⟨h1, p, hp, h2⟩)
        · exact Or.inl (Or.inl h1)
        · rw [List.mem_singleton] at hp; subst hp
          rcases (cubeFace_iff hc).1 h2 with rfl | ⟨q, hq, h3⟩
          · exact Or.inr ⟨by omega, rfl⟩
          · exact Or.inl (Or.inr ⟨h1, q.1, List.mem_map_of_mem hq, h3⟩)
    · have := q6.new.trans (NewOK.push cells1 (d + 1) s) q6.ext (push_prefix _ _ _)
      rw [hab] at this; exact this

theorem recOK (D d : Nat) : RecOK D d := by
  induction d with
  | zero => exact recOK_zero D
  | succ d ih => exact recOK_succ ih

/-! ### public calls -/

theorem init_inv {D : Nat} (hD : 0 < D) : Inv (init D) D (fun _ => []) := by
  have g : ∀ {α : Type} (n : Nat) (a : α) (i : Nat), (growTo ([] : List α) n a)[i]? = if i < n then some a else none := by
    intro α n a i; rw [growTo_getElem?]; simp
  have gl : ∀ {α : Type} (n : Nat) (a : α), (growTo ([] : List α) n a).length = n := by intro α n a; rw [growTo_length]; simp
  refine ⟨⟨by simp, by simp, by simp⟩, ?_, ⟨hD, ?_, gl (D + 1) 0, gl (D + 1) [], gl D [], gl D []⟩, ?_, ?_⟩
  · intro s hs i
    show (Trie.empty.get? s) = some i ↔ _
    rw [Trie.get?_empty, if_neg (by rintro rfl; simp at hs; omega)]; simp
  · show (if D < D then D else D) = D; simp
  · intro e he
    exact ⟨by show (growTo [] (D + 1) 0)[e]? = _; rw [g, if_pos (by omega)]; rfl, by show (growTo [] (D + 1) [])[e]? = _; rw [g, if_pos (by omega)]; rfl⟩
  · intro e he
    exact ⟨by show (growTo [] D [])[e]? = _; rw [g, if_pos (by omega)]; rfl, by show (growTo [] D [])[e]? = _; rw [g, if_pos (by omega)]; rfl⟩

/-- the result of `add` on a cube -/
theorem add_spec (h : Inv X D cells) {s : List Nat} (hc : IsCube D s) :
    ∃ Y cells' r, add X s = .ok (Y, cubeDim s, r) ∧ Inv Y D cells' ∧
      ((s ∈ cells (cubeDim s) ∧ cells' = cells ∧ r = some ((cells (cubeDim s)).idxOf s)) ∨
       (s ∉ cells (cubeDim s) ∧ FacesIn cells s ∧ cells' = push cells (cubeDim s) s ∧ r = some (cells (cubeDim s)).length) ∨
       (s ∉ cells (cubeDim s) ∧ ¬ FacesIn cells s ∧ Y = X ∧ cells' = cells ∧ r = none)) := by
  have hv : X.isValidCube s = true := isValidCube_iff.2 (by rw [h.sizes.dim]; exact hc)
  unfold add
  rw [hv]
  simp only [Bool.not_true, Bool.false_eq_true, if_false]
  by_cases hm : s ∈ cells (cubeDim s)
  · have hg := h.trie.get hc.1 hm
    rw [if_pos (by rw [Trie.count_eq, hg]; simp), Trie.getRef_of_get? hg]
    exact ⟨X, cells, _, rfl, h, Or.inl ⟨hm, rfl, rfl⟩⟩
  · have hg := h.trie.none hc.1 hm
    rw [if_neg (by rw [Trie.count_eq, hg]; simp)]
    by_cases hf : FacesIn cells s
    · obtain ⟨Y, e1, e2⟩ := addUnsafe_ok h hc hm hf
      rw [e1]
      exact ⟨Y, _, _, rfl, e2, Or.inr (Or.inl ⟨hm, hf, rfl, rfl⟩)⟩
    · rw [addUnsafe_fail h hc hf]
      exact ⟨X, cells, _, rfl, h, Or.inr (Or.inr ⟨hm, hf, rfl, rfl, rfl⟩)⟩

/-- the result of `add_recursive` on a cube -/
theorem addRecursive_spec (h : Inv X D cells) {s : List Nat} (hc : IsCube D s) :
    ∃ Y cells' r, addRecursive X s = .ok (Y, r) ∧ Inv Y D cells' ∧
      ((s ∈ cells (cubeDim s) ∧ Y = X ∧ cells' = cells ∧ r = [(cubeDim s, (cells (cubeDim s)).idxOf s)]) ∨
       (s ∉ cells (cubeDim s) ∧ Added D cells cells' (cubeDim s) [s] r ∧ cells' (cubeDim s) = cells (cubeDim s) ++ [s] ∧
         r.getLast? = some (cubeDim s, (cells (cubeDim s)).length))) := by
  have hv : X.isValidCube s = true := isValidCube_iff.2 (by rw [h.sizes.dim]; exact hc)
  unfold addRecursive
  rw [hv]
  simp only [Bool.not_true, Bool.false_eq_true, if_false]
  by_cases hm : s ∈ cells (cubeDim s)
  · have hg := h.trie.get hc.1 hm
    rw [if_pos (by rw [Trie.count_eq, hg]; simp), Trie.getRef_of_get? hg]
    exact ⟨X, cells, _, rfl, h, Or.inl ⟨hm, rfl, rfl, rfl⟩⟩
  · have hg := h.trie.none hc.1 hm
    rw [if_neg (by rw [Trie.count_eq, hg]; simp)]
    obtain ⟨Y, cells', new, e1, e2, e3, e4, e5, e6⟩ := recOK D (cubeDim s) X cells s [] (h.pinv (cubeDim_le hc)) hc rfl hm
    rw [e1]
    exact ⟨Y, cells', new, rfl, h.of_pinv e2 e3 e4.above (e4.ext _), Or.inr ⟨hm, e4, e5, e6⟩⟩

end Cub
end BATS

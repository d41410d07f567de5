import Verif.Model.CubicalFilt
import Verif.Proofs.CubicalPersistence
import Verif.Proofs.DiagramLoops

set_option linter.unusedSectionVars false
set_option linter.unusedVariables false
set_option linter.unusedSimpArgs false

/-! # Values of images on cubes -/

namespace BATS
namespace Cub
open SCpx (Cells)

variable {T : Type} [LinearOrder T]

theorem stdMax_eq (a b : T) : stdMax a b = max a b := by
  unfold stdMax
  split
  · rename_i h; exact (max_eq_right h.le).symm
  · rename_i h; exact (max_eq_left (not_lt.1 h)).symm

theorem cubeRow_ok {f : List Nat → Res T} {w : List Nat → T} : ∀ (cs : List (List Nat)), (∀ c ∈ cs, f c = .ok (w c)) → cubeRow f cs = .ok (cs.map w)
  | [], _ => rfl
  | c :: cs, h => by
    rw [cubeRow, h c (by simp), bind_ok, cubeRow_ok cs (fun d hd => h d (by simp [hd])), bind_ok]
    rfl

theorem cubeRow_error {f : List Nat → Res T} (hf : ∀ c e, f c = .error e → e = .ub) : ∀ (cs : List (List Nat)) (c : List Nat), c ∈ cs → f c = .error .ub →
    cubeRow f cs = .error .ub
  | [], _, h, _ => by simp at h
  | d :: cs, c, h, he => by
    rw [cubeRow]
    rcases hd : f d with e | v
    · rw [hf d e hd]; rfl
    · rw [bind_ok]
      have hc : c ∈ cs := by
        rcases List.mem_cons.1 h with rfl | h
        · rw [he] at hd; cases hd
        · exact h
      rw [cubeRow_error hf cs c hc he]; rfl

variable {X : Cub} {D : Nat} {cells : Cells}

theorem cubeLoop_ok (h : Inv X D cells) {f : List Nat → Res T} {w : List Nat → T} (hf : ∀ d, ∀ c ∈ cells d, f c = .ok (w c)) :
    ∀ (n k : Nat), k + n ≤ D + 1 → cubeLoop X f n k = .ok ((List.range' k n).map (fun d => (cells d).map w))
  | 0, _, _ => rfl
  | n + 1, k, hk => by
    rw [cubeLoop, getCubes_spec h (by omega), bind_ok, cubeRow_ok _ (hf k), bind_ok, cubeLoop_ok h hf n (k + 1) (by omega), bind_ok]
    rfl

theorem cubeLoop_error (h : Inv X D cells) {f : List Nat → Res T} (hf : ∀ c e, f c = .error e → e = .ub) {d : Nat} {c : List Nat} (hc : c ∈ cells d)
    (he : f c = .error .ub) : ∀ (n k : Nat), k + n ≤ D + 1 → k ≤ d → d < k + n → cubeLoop X f n k = .error .ub
  | 0, _, _, _, _ => by omega
  | n + 1, k, hk, h1, h2 => by
    rw [cubeLoop, getCubes_spec h (by omega), bind_ok]
    rcases hr : cubeRow f (cells k) with e | v
    · have : ∀ (cs : List (List Nat)) e, cubeRow f cs = .error e → e = .ub := by
        intro cs
        induction cs with
        | nil => intro e h; cases h
        | cons a cs ih =>
          intro e h
          rw [cubeRow] at h
          rcases ha : f a with e' | v
          · rw [ha] at h; cases h; exact hf a _ ha
          · rw [ha, bind_ok] at h
            rcases hb : cubeRow f cs with e' | v'
            · rw [hb] at h; cases h; exact ih _ hb
            · rw [hb] at h; cases h
      rw [this _ _ hr]; rfl
    · rw [bind_ok]
      have hne : k ≠ d := by
        rintro rfl
        rw [cubeRow_error hf _ c hc he] at hr; cases hr
      rw [cubeLoop_error h hf hc he n (k + 1) (by omega) (by omega) (by omega)]; rfl

theorem rd_error_ub {α : Type} {l : List α} {i : Nat} {e : Err} (h : rd l i = .error e) : e = .ub := by
  unfold rd at h
  split at h
  · cases h
  · cases h; rfl

theorem bind_error_ub {α β : Type} {x : Res α} {g : α → Res β} (h1 : ∀ e, x = .error e → e = .ub) (h2 : ∀ a e, g a = .error e → e = .ub) :
    ∀ e, (x >>= g) = .error e → e = .ub := by
  intro e h
  rcases x with e' | a
  · cases h; exact h1 _ rfl
  · exact h2 a e h

theorem pix2_ub {f0 : List (List T)} {i j : Nat} : ∀ e, pix2 f0 i j = .error e → e = .ub :=
  bind_error_ub (fun e h => rd_error_ub h) (fun a e h => rd_error_ub h)

theorem pix3_ub {f0 : List (List (List T))} {i j k : Nat} : ∀ e, pix3 f0 i j k = .error e → e = .ub :=
  bind_error_ub (fun e h => rd_error_ub h) (fun a e h => pix2_ub e h)

theorem maxCubeVal2_ub {f0 : List (List T)} {c : List Nat} : ∀ e, maxCubeVal2 f0 c = .error e → e = .ub := by
  unfold maxCubeVal2
  refine bind_error_ub (fun e h => rd_error_ub h) fun a => ?_
  refine bind_error_ub (fun e h => rd_error_ub h) fun a => ?_
  refine bind_error_ub (fun e h => rd_error_ub h) fun a => ?_
  refine bind_error_ub (fun e h => rd_error_ub h) fun a => ?_
  refine bind_error_ub pix2_ub fun a => ?_
  refine bind_error_ub pix2_ub fun a => ?_
  refine bind_error_ub pix2_ub fun a => ?_
  refine bind_error_ub pix2_ub fun a => ?_
  intro e h; cases h

theorem maxLoop3_ub {f0 : List (List (List T))} {c : List Nat} : ∀ (ts : List (Nat × Nat × Nat)) (v : T) (e : Err), maxLoop3 f0 c v ts = .error e → e = .ub
  | [], v, e, h => by cases h
  | (i, j, k) :: ts, v, e, h => by
    rw [maxLoop3] at h
    revert e
    refine bind_error_ub (fun e h => rd_error_ub h) fun a => ?_
    refine bind_error_ub (fun e h => rd_error_ub h) fun a => ?_
    refine bind_error_ub (fun e h => rd_error_ub h) fun a => ?_
    refine bind_error_ub pix3_ub fun a => ?_
    exact maxLoop3_ub ts _

theorem maxCubeVal3_ub {f0 : List (List (List T))} {c : List Nat} : ∀ e, maxCubeVal3 f0 c = .error e → e = .ub := by
  unfold maxCubeVal3
  refine bind_error_ub (fun e h => rd_error_ub h) fun a => ?_
  refine bind_error_ub (fun e h => rd_error_ub h) fun a => ?_
  refine bind_error_ub (fun e h => rd_error_ub h) fun a => ?_
  refine bind_error_ub pix3_ub fun a => ?_
  exact maxLoop3_ub _ _

theorem pix2_iff {f0 : List (List T)} {i j : Nat} {v : T} : pix2 f0 i j = .ok v ↔ pixel2 f0 [i, j] = some v := by
  unfold pix2 pixel2
  show (rd f0 i >>= _) = _ ↔ (f0[i]?).bind (fun r => r[j]?) = _
  unfold rd
  rcases f0[i]? with _ | r
  · constructor <;> intro h <;> cases h
  · rw [bind_ok, Option.bind_some]
    show (match r[j]? with | some a => _ | none => _) = _ ↔ _
    rcases r[j]? with _ | x
    · constructor <;> intro h <;> cases h
    · constructor <;> intro h <;> cases h <;> rfl

theorem pix3_iff {f0 : List (List (List T))} {i j k : Nat} {v : T} : pix3 f0 i j k = .ok v ↔ pixel3 f0 [i, j, k] = some v := by
  unfold pix3 pixel3
  show (rd f0 i >>= _) = _ ↔ (f0[i]?).bind (fun m => (m[j]?).bind (fun r => r[k]?)) = _
  unfold rd
  rcases f0[i]? with _ | m
  · constructor <;> intro h <;> cases h
  · rw [bind_ok, Option.bind_some]
    show pix2 m j k = .ok v ↔ _
    rw [pix2_iff]; rfl

theorem isCube2 {s : List Nat} (h : IsCube 2 s) : ∃ a b c d, s = [a, b, c, d] ∧ (b = a ∨ b = a + 1) ∧ (d = c ∨ d = c + 1) := by
  obtain ⟨h1, h2⟩ := h
  match s, h1 with
  | [a, b, c, d], _ => exact ⟨a, b, c, d, rfl, h2 0 (by omega), h2 1 (by omega)⟩

theorem isCube3 {s : List Nat} (h : IsCube 3 s) : ∃ a b c d e f, s = [a, b, c, d, e, f] ∧ (b = a ∨ b = a + 1) ∧ (d = c ∨ d = c + 1) ∧ (f = e ∨ f = e + 1) := by
  obtain ⟨h1, h2⟩ := h
  match s, h1 with
  | [a, b, c, d, e, f], _ => exact ⟨a, b, c, d, e, f, rfl, h2 0 (by omega), h2 1 (by omega), h2 2 (by omega)⟩

theorem cubeVertex2 {a b c d : Nat} (h1 : b = a ∨ b = a + 1) (h2 : d = c ∨ d = c + 1) (p : List Nat) :
    CubeVertex 2 p [a, b, c, d] ↔ p ∈ [[a, c], [a, d], [b, c], [b, d]] := by
  have e0 : lo [a, b, c, d] 0 = a := rfl
  have e1 : hi [a, b, c, d] 0 = b := rfl
  have e2 : lo [a, b, c, d] 1 = c := rfl
  have e3 : hi [a, b, c, d] 1 = d := rfl
  simp only [List.mem_cons, List.not_mem_nil, or_false]
  constructor
  · rintro ⟨hl, h⟩
    match p, hl with
    | [x, y], _ =>
      have g0 := h 0 (by omega)
      have g1 := h 1 (by omega)
      have f0 : ([x, y] : List Nat).getD 0 0 = x := rfl
      have f1 : ([x, y] : List Nat).getD 1 0 = y := rfl
      rw [e0, e1, f0] at g0
      rw [e2, e3, f1] at g1
      simp only [List.cons.injEq, and_true]
      omega
  · intro h
    have key : ∀ x y, (x = a ∨ x = b) → (y = c ∨ y = d) → CubeVertex 2 [x, y] [a, b, c, d] := by
      intro x y hx hy
      refine ⟨rfl, ?_⟩
      intro i hi
      rcases (show i = 0 ∨ i = 1 by omega) with rfl | rfl
      · rw [e0, e1]; show a ≤ x ∧ x ≤ b; omega
      · rw [e2, e3]; show c ≤ y ∧ y ≤ d; omega
    rcases h with rfl | rfl | rfl | rfl <;> exact key _ _ (by tauto) (by tauto)

theorem cubeVertex3 {a b c d e f : Nat} (h1 : b = a ∨ b = a + 1) (h2 : d = c ∨ d = c + 1) (h3 : f = e ∨ f = e + 1) (p : List Nat) :
    CubeVertex 3 p [a, b, c, d, e, f] ↔ p ∈ [[a, c, e], [a, c, f], [a, d, e], [a, d, f], [b, c, e], [b, c, f], [b, d, e], [b, d, f]] := by
  have e0 : lo [a, b, c, d, e, f] 0 = a := rfl
  have e1 : hi [a, b, c, d, e, f] 0 = b := rfl
  have e2 : lo [a, b, c, d, e, f] 1 = c := rfl
  have e3 : hi [a, b, c, d, e, f] 1 = d := rfl
  have e4 : lo [a, b, c, d, e, f] 2 = e := rfl
  have e5 : hi [a, b, c, d, e, f] 2 = f := rfl
  simp only [List.mem_cons, List.not_mem_nil, or_false]
  constructor
  · rintro ⟨hl, h⟩
    match p, hl with
    | [x, y, z], _ =>
      have g0 := h 0 (by omega)
      have g1 := h 1 (by omega)
      have g2 := h 2 (by omega)
      have f0 : ([x, y, z] : List Nat).getD 0 0 = x := rfl
      have f1 : ([x, y, z] : List Nat).getD 1 0 = y := rfl
      have f2 : ([x, y, z] : List Nat).getD 2 0 = z := rfl
      rw [e0, e1, f0] at g0
      rw [e2, e3, f1] at g1
      rw [e4, e5, f2] at g2
      simp only [List.cons.injEq, and_true]
      have q0 : x = a ∨ x = b := by omega
      have q1 : y = c ∨ y = d := by omega
      have q2 : z = e ∨ z = f := by omega
      rcases q0 with rfl | rfl <;> rcases q1 with rfl | rfl <;> rcases q2 with rfl | rfl <;> simp
  · intro h
    have key : ∀ x y z, (x = a ∨ x = b) → (y = c ∨ y = d) → (z = e ∨ z = f) → CubeVertex 3 [x, y, z] [a, b, c, d, e, f] := by
      intro x y z hx hy hz
      refine ⟨rfl, ?_⟩
      intro i hi
      rcases (show i = 0 ∨ i = 1 ∨ i = 2 by omega) with rfl | rfl | rfl
      · rw [e0, e1]; show a ≤ x ∧ x ≤ b; omega
      · rw [e2, e3]; show c ≤ y ∧ y ≤ d; omega
      · rw [e4, e5]; show e ≤ z ∧ z ≤ f; omega
    rcases h with rfl | rfl | rfl | rfl | rfl | rfl | rfl | rfl <;> exact key _ _ _ (by simp) (by simp) (by simp)

theorem maxCubeVal2_ok {f0 : List (List T)} {s : List Nat} (h : IsCube 2 s) (hp : ∀ p, CubeVertex 2 p s → pixel2 f0 p ≠ none) :
    ∃ v, maxCubeVal2 f0 s = .ok v ∧ IsCubeMax 2 (pixel2 f0) s v := by
  obtain ⟨a, b, c, d, rfl, h1, h2⟩ := isCube2 h
  have hv := cubeVertex2 h1 h2
  have hg : ∀ p, p ∈ [[a, c], [a, d], [b, c], [b, d]] → ∃ v, pixel2 f0 p = some v :=
    fun p hm => Option.ne_none_iff_exists'.1 (hp p ((hv p).2 hm))
  obtain ⟨v1, e1⟩ := hg [a, c] (by simp)
  obtain ⟨v2, e2⟩ := hg [a, d] (by simp)
  obtain ⟨v3, e3⟩ := hg [b, c] (by simp)
  obtain ⟨v4, e4⟩ := hg [b, d] (by simp)
  refine ⟨max (max v1 v2) (max v3 v4), ?_, ?_, ?_⟩
  · unfold maxCubeVal2
    rw [show rd [a, b, c, d] 0 = .ok a from rfl, show rd [a, b, c, d] 1 = .ok b from rfl, show rd [a, b, c, d] 2 = .ok c from rfl,
      show rd [a, b, c, d] 3 = .ok d from rfl]
    simp only [bind_ok]
    rw [pix2_iff.2 e1, pix2_iff.2 e2, pix2_iff.2 e3, pix2_iff.2 e4]
    simp only [bind_ok, stdMax_eq]
    rfl
  · have : max (max v1 v2) (max v3 v4) = v1 ∨ max (max v1 v2) (max v3 v4) = v2 ∨ max (max v1 v2) (max v3 v4) = v3 ∨ max (max v1 v2) (max v3 v4) = v4 := by
      rcases max_choice (max v1 v2) (max v3 v4) with h | h <;> rw [h]
      · rcases max_choice v1 v2 with h | h <;> rw [h] <;> simp
      · rcases max_choice v3 v4 with h | h <;> rw [h] <;> simp
    rcases this with h | h | h | h <;> rw [h]
    · exact ⟨_, (hv _).2 (by simp), e1⟩
    · exact ⟨_, (hv _).2 (by simp), e2⟩
    · exact ⟨_, (hv _).2 (by simp), e3⟩
    · exact ⟨_, (hv _).2 (by simp), e4⟩
  · intro p hm
    have := (hv p).1 hm
    simp only [List.mem_cons, List.not_mem_nil, or_false] at this
    rcases this with rfl | rfl | rfl | rfl
    · exact ⟨_, e1, by simp⟩
    · exact ⟨_, e2, by simp⟩
    · exact ⟨_, e3, by simp⟩
    · exact ⟨_, e4, by simp⟩

theorem maxCubeVal2_fail {f0 : List (List T)} {s : List Nat} (h : IsCube 2 s) {p : List Nat} (hp : CubeVertex 2 p s) (hn : pixel2 f0 p = none) :
    maxCubeVal2 f0 s = .error .ub := by
  rcases hr : maxCubeVal2 f0 s with e | v
  · rw [maxCubeVal2_ub e hr]
  · exfalso
    obtain ⟨a, b, c, d, rfl, h1, h2⟩ := isCube2 h
    unfold maxCubeVal2 at hr
    simp only [bind_ok_iff] at hr
    obtain ⟨x0, r0, x1, r1, x2, r2, x3, r3, v1, p1, v2, p2, v3, p3, v4, p4, _⟩ := hr
    cases (show Except.ok a = _ from r0); cases (show Except.ok b = _ from r1); cases (show Except.ok c = _ from r2); cases (show Except.ok d = _ from r3)
    have := (cubeVertex2 h1 h2 p).1 hp
    simp only [List.mem_cons, List.not_mem_nil, or_false] at this
    rcases this with rfl | rfl | rfl | rfl
    · rw [pix2_iff.1 p1] at hn; cases hn
    · rw [pix2_iff.1 p2] at hn; cases hn
    · rw [pix2_iff.1 p3] at hn; cases hn
    · rw [pix2_iff.1 p4] at hn; cases hn

/-- the vertex which a triple of positions selects -/
def sel (c : List Nat) (t : Nat × Nat × Nat) : List Nat := [c.getD t.1 0, c.getD t.2.1 0, c.getD t.2.2 0]

theorem maxLoop3_iff {f0 : List (List (List T))} {c : List Nat} : ∀ (ts : List (Nat × Nat × Nat)) (v r : T),
    (∀ t ∈ ts, t.1 < c.length ∧ t.2.1 < c.length ∧ t.2.2 < c.length) →
    (maxLoop3 f0 c v ts = .ok r ↔ (∀ t ∈ ts, ∃ y, pixel3 f0 (sel c t) = some y ∧ y ≤ r) ∧ v ≤ r ∧
      (r = v ∨ ∃ t ∈ ts, pixel3 f0 (sel c t) = some r))
  | [], v, r, _ => by
    constructor
    · intro h; cases h; exact ⟨by simp, le_rfl, Or.inl rfl⟩
    · rintro ⟨_, _, h | ⟨t, ht, _⟩⟩
      · rw [h]; rfl
      · simp at ht
  | (i, j, k) :: ts, v, r, hl => by
    obtain ⟨g1, g2, g3⟩ := hl (i, j, k) (by simp)
    have ih := fun v => maxLoop3_iff (f0 := f0) ts v r (fun t ht => hl t (by simp [ht]))
    have ei : rd c i = .ok (c.getD i 0) := by rw [rd_lt g1, List.getD_eq_getElem?_getD, List.getElem?_eq_getElem g1]; rfl
    have ej : rd c j = .ok (c.getD j 0) := by rw [rd_lt g2, List.getD_eq_getElem?_getD, List.getElem?_eq_getElem g2]; rfl
    have ek : rd c k = .ok (c.getD k 0) := by rw [rd_lt g3, List.getD_eq_getElem?_getD, List.getElem?_eq_getElem g3]; rfl
    rw [maxLoop3, ei, ej, ek]
    simp only [bind_ok, bind_ok_iff, pix3_iff, ih]
    simp only [List.mem_cons, forall_eq_or_imp, exists_eq_or_imp]
    show (∃ a, pixel3 f0 (sel c (i, j, k)) = some a ∧ _) ↔ _
    constructor
    · rintro ⟨a, ha, h1, h2, h3⟩
      refine ⟨⟨⟨a, ha, ?_⟩, h1⟩, ?_, ?_⟩
      · split at h2
        · exact h2
        · rename_i h; exact le_trans (not_lt.1 h) h2
      · split at h2
        · rename_i h; exact le_trans h.le h2
        · exact h2
      · rcases h3 with h3 | h3
        · split at h3
          · right; left; rw [ha, h3]
          · left; exact h3
        · exact Or.inr (Or.inr h3)
    · rintro ⟨⟨⟨a, ha, hle⟩, h1⟩, h2, h3⟩
      refine ⟨a, ha, h1, ?_, ?_⟩
      · split
        · exact hle
        · exact h2
      · rcases h3 with h3 | h3 | h3
        · left
          rw [if_neg (by rw [← h3]; exact not_lt.2 hle)]; exact h3
        · rw [ha] at h3
          cases h3
          left
          split
          · rfl
          · rename_i h; exact le_antisymm (not_lt.1 h) h2
        · exact Or.inr h3

theorem maxCubeVal3_iff {f0 : List (List (List T))} {s : List Nat} (h : IsCube 3 s) (v : T) :
    maxCubeVal3 f0 s = .ok v ↔ IsCubeMax 3 (pixel3 f0) s v := by
  obtain ⟨a, b, c, d, e, f, rfl, h1, h2, h3⟩ := isCube3 h
  have hv := cubeVertex3 h1 h2 h3
  unfold maxCubeVal3 IsCubeMax
  rw [show rd [a, b, c, d, e, f] 0 = .ok a from rfl, show rd [a, b, c, d, e, f] 2 = .ok c from rfl, show rd [a, b, c, d, e, f] 4 = .ok e from rfl]
  simp only [bind_ok, bind_ok_iff, pix3_iff]
  have key := fun w => maxLoop3_iff (f0 := f0) (c := [a, b, c, d, e, f])
    [(0, 2, 4), (0, 2, 5), (0, 3, 4), (0, 3, 5), (1, 2, 4), (1, 2, 5), (1, 3, 4), (1, 3, 5)] w v (by simp)
  simp only [key, hv]
  have hs1 : sel [a, b, c, d, e, f] (0, 2, 4) = [a, c, e] := rfl
  have hs2 : sel [a, b, c, d, e, f] (0, 2, 5) = [a, c, f] := rfl
  have hs3 : sel [a, b, c, d, e, f] (0, 3, 4) = [a, d, e] := rfl
  have hs4 : sel [a, b, c, d, e, f] (0, 3, 5) = [a, d, f] := rfl
  have hs5 : sel [a, b, c, d, e, f] (1, 2, 4) = [b, c, e] := rfl
  have hs6 : sel [a, b, c, d, e, f] (1, 2, 5) = [b, c, f] := rfl
  have hs7 : sel [a, b, c, d, e, f] (1, 3, 4) = [b, d, e] := rfl
  have hs8 : sel [a, b, c, d, e, f] (1, 3, 5) = [b, d, f] := rfl
  simp only [List.mem_cons, List.not_mem_nil, or_false, forall_eq_or_imp, forall_eq, exists_eq_or_imp, exists_eq_left, hs1, hs2, hs3, hs4, hs5, hs6, hs7, hs8]
  constructor
  · rintro ⟨x, hx, h1, h2, h3⟩
    refine ⟨?_, h1⟩
    rcases h3 with h3 | h3
    · left; rw [hx, h3]
    · exact h3
  · rintro ⟨h1, h2⟩
    obtain ⟨x, hx, hle⟩ := h2.1
    exact ⟨x, hx, h2, hle, Or.inr h1⟩

theorem exists_cubeMax3 {f : List Nat → Option T} {s : List Nat} (h : IsCube 3 s) (hp : ∀ p, CubeVertex 3 p s → f p ≠ none) : ∃ v, IsCubeMax 3 f s v := by
  obtain ⟨a, b, c, d, e, g, rfl, h1, h2, h3⟩ := isCube3 h
  have hv := cubeVertex3 h1 h2 h3
  unfold IsCubeMax
  simp only [hv] at hp ⊢
  generalize hl : [[a, c, e], [a, c, g], [a, d, e], [a, d, g], [b, c, e], [b, c, g], [b, d, e], [b, d, g]] = l at hp ⊢
  have hne : l ≠ [] := by rw [← hl]; simp
  clear hl hv
  induction l with
  | nil => exact absurd rfl hne
  | cons p l ih =>
    obtain ⟨x, hx⟩ := Option.ne_none_iff_exists'.1 (hp p (by simp))
    by_cases hl : l = []
    · subst hl
      exact ⟨x, ⟨p, by simp, hx⟩, fun q hq => by rw [List.mem_singleton] at hq; subst hq; exact ⟨x, hx, le_rfl⟩⟩
    · obtain ⟨v, ⟨q, hq, hv⟩, hall⟩ := ih (fun q hq => hp q (by simp [hq])) hl
      rcases le_total x v with hle | hle
      · refine ⟨v, ⟨q, by simp [hq], hv⟩, fun r hr => ?_⟩
        rcases List.mem_cons.1 hr with rfl | hr
        · exact ⟨x, hx, hle⟩
        · exact hall r hr
      · refine ⟨x, ⟨p, by simp, hx⟩, fun r hr => ?_⟩
        rcases List.mem_cons.1 hr with rfl | hr
        · exact ⟨x, hx, le_rfl⟩
        · obtain ⟨y, h1, h2⟩ := hall r hr
          exact ⟨y, h1, le_trans h2 hle⟩

theorem maxCubeVal3_ok {f0 : List (List (List T))} {s : List Nat} (h : IsCube 3 s) (hp : ∀ p, CubeVertex 3 p s → pixel3 f0 p ≠ none) :
    ∃ v, maxCubeVal3 f0 s = .ok v ∧ IsCubeMax 3 (pixel3 f0) s v := by
  obtain ⟨v, hv⟩ := exists_cubeMax3 h hp
  exact ⟨v, (maxCubeVal3_iff h v).2 hv, hv⟩

theorem maxCubeVal3_fail {f0 : List (List (List T))} {s : List Nat} (h : IsCube 3 s) {p : List Nat} (hp : CubeVertex 3 p s) (hn : pixel3 f0 p = none) :
    maxCubeVal3 f0 s = .error .ub := by
  rcases hr : maxCubeVal3 f0 s with e | v
  · rw [maxCubeVal3_ub e hr]
  · exfalso
    obtain ⟨y, hy, _⟩ := ((maxCubeVal3_iff h v).1 hr).2 p hp
    rw [hn] at hy; cases hy

/-- the faces of a cube have fewer vertices -/
theorem cubeVertex_face {D : Nat} {s t p : List Nat} (h : CubeFace D t s) (hp : CubeVertex D p t) : CubeVertex D p s :=
  ⟨hp.1, fun i hi => ⟨le_trans (h.2 i hi).1 (hp.2 i hi).1, le_trans (hp.2 i hi).2 (h.2 i hi).2⟩⟩

theorem isCubeMax_mono {D : Nat} {f : List Nat → Option T} {s t : List Nat} (h : CubeFace D t s) {v w : T} (hv : IsCubeMax D f t v) (hw : IsCubeMax D f s w) : v ≤ w := by
  obtain ⟨p, hp, e⟩ := hv.1
  obtain ⟨y, e', hle⟩ := hw.2 p (cubeVertex_face h hp)
  rw [e] at e'; cases e'; exact hle

end Cub
end BATS

import Verif.Model.Argv
import Verif.Proofs.Text

set_option linter.unusedSectionVars false

/-! # C90: command line arguments (`parse_argv`, include/util/io.hpp) -/

namespace BATS
namespace Txt

/-- an entry is about `token`: it is `token` or starts with `token` and `=` -/
def About (token entry : Str) : Prop := entry = token ∨ ∃ v, entry = token ++ '=' :: v

theorem split_first {l : Str} (h : '=' ∈ l) : ∃ w v, l = w ++ '=' :: v ∧ '=' ∉ w := by
  induction l with
  | nil => cases h
  | cons c l ih =>
    by_cases hc : c = '='
    · exact ⟨[], l, by rw [hc]; rfl, by simp⟩
    · obtain ⟨w, v, e, hw⟩ := ih (by
        rcases List.mem_cons.1 h with h | h
        · exact absurd h.symm hc
        · exact h)
      refine ⟨c :: w, v, by rw [e]; rfl, ?_⟩
      intro hm
      rcases List.mem_cons.1 hm with h | h
      · exact hc h.symm
      · exact hw h

theorem prefix_of {entry : Str} : ∃ w, '=' ∉ w ∧ (getline '=' (Stream.ofStr entry) []).2 = w ∧ (entry = w ∨ ∃ v, entry = w ++ '=' :: v) := by
  by_cases h : '=' ∈ entry
  · obtain ⟨w, v, e, hw⟩ := split_first h
    refine ⟨w, hw, ?_, Or.inr ⟨v, e⟩⟩
    rw [e]
    unfold Stream.ofStr
    rw [getline_delim hw]
  · refine ⟨entry, h, ?_, Or.inl rfl⟩
    unfold Stream.ofStr
    rw [getline_end h]

/-- the prefix is the token exactly for the entries about the token -/
theorem prefix_iff {token entry : Str} (ht : '=' ∉ token) : token = (getline '=' (Stream.ofStr entry) []).2 ↔ About token entry := by
  constructor
  · intro h
    obtain ⟨w, _, h2, h3⟩ := prefix_of (entry := entry)
    rw [h2] at h
    rw [h]; exact h3
  · rintro (h | ⟨v, h⟩)
    · rw [h]; unfold Stream.ofStr; rw [getline_end ht]
    · rw [h]; unfold Stream.ofStr; rw [getline_delim ht]

theorem argLoop_skip (token dflt : Str) (ht : '=' ∉ token) : ∀ (pre rest : List Str), (∀ x ∈ pre, ¬ About token x) →
    argLoop token dflt (pre ++ rest) = argLoop token dflt rest := by
  intro pre
  induction pre with
  | nil => intro rest _; rfl
  | cons x pre ih =>
    intro rest h
    rw [List.cons_append, argLoop, if_neg (fun e => h x (by simp) ((prefix_iff ht).1 e)), ih rest (fun y hy => h y (by simp [hy]))]

/-- C90: the value of the first entry `token=value` is returned, also if there are further `=` in the value, if no entry before it is about the token; the
name of the program does not count -/
theorem C90_value (prog : Str) (pre post : List Str) {token v : Str} (dflt : Str) (ht : '=' ∉ token) (hv : '\n' ∉ v) (hpre : ∀ x ∈ pre, ¬ About token x) :
    parseArgv (prog :: (pre ++ (token ++ '=' :: v) :: post)) token dflt = v := by
  unfold parseArgv
  rw [List.drop_succ_cons, List.drop_zero, argLoop_skip token dflt ht pre _ hpre, argLoop, if_pos ((prefix_iff ht).2 (Or.inr ⟨v, rfl⟩))]
  unfold Stream.ofStr
  rw [getline_delim ht, getline_end hv]

/-- C90: only the first line of the value is returned -/
theorem C90_line (prog : Str) (pre post : List Str) {token v : Str} (dflt r : Str) (ht : '=' ∉ token) (hv : '\n' ∉ v) (hpre : ∀ x ∈ pre, ¬ About token x) :
    parseArgv (prog :: (pre ++ (token ++ '=' :: (v ++ '\n' :: r)) :: post)) token dflt = v := by
  unfold parseArgv
  rw [List.drop_succ_cons, List.drop_zero, argLoop_skip token dflt ht pre _ hpre, argLoop, if_pos ((prefix_iff ht).2 (Or.inr ⟨_, rfl⟩))]
  unfold Stream.ofStr
  rw [getline_delim ht, getline_delim hv]

/-- C90: for an entry which is the token without `=` the value is empty, not the default -/
theorem C90_flag (prog : Str) (pre post : List Str) {token : Str} (dflt : Str) (ht : '=' ∉ token) (hpre : ∀ x ∈ pre, ¬ About token x) :
    parseArgv (prog :: (pre ++ token :: post)) token dflt = [] := by
  unfold parseArgv
  rw [List.drop_succ_cons, List.drop_zero, argLoop_skip token dflt ht pre _ hpre, argLoop, if_pos ((prefix_iff ht).2 (Or.inl rfl))]
  unfold Stream.ofStr
  rw [getline_end ht, getline_bad]

/-- C90: if no entry is about the token the default is returned -/
theorem C90_default (prog : Str) (args : List Str) {token : Str} (dflt : Str) (ht : '=' ∉ token) (h : ∀ x ∈ args, ¬ About token x) :
    parseArgv (prog :: args) token dflt = dflt := by
  unfold parseArgv
  rw [List.drop_succ_cons, List.drop_zero]
  have := argLoop_skip token dflt ht args [] h
  rw [List.append_nil] at this
  rw [this]; rfl

/-- C90: a token with `=` in it (as in `"--n="`) is never found -/
theorem C90_token (prog : Str) (args : List Str) {token : Str} (dflt : Str) (ht : '=' ∈ token) : parseArgv (prog :: args) token dflt = dflt := by
  unfold parseArgv
  rw [List.drop_succ_cons, List.drop_zero]
  induction args with
  | nil => rfl
  | cons x args ih =>
    rw [argLoop, if_neg, ih]
    intro e
    obtain ⟨w, h1, h2, _⟩ := prefix_of (entry := x)
    rw [h2] at e
    exact h1 (e ▸ ht)

/-! ### examples -/

example : parseArgv ["prog".toList, "--m=3".toList, "--n=5=6".toList, "--n=7".toList] "--n".toList "1".toList = "5=6".toList := by decide +kernel
example : parseArgv ["prog".toList, "--m=3".toList] "--n".toList "1".toList = "1".toList := by decide +kernel
example : parseArgv ["--n=2".toList, "--n".toList] "--n".toList "1".toList = [] := by decide +kernel

/-- the hypotheses of `C90_value` are met -/
example : '=' ∉ "--n".toList ∧ '\n' ∉ "5=6".toList := by decide +kernel

end Txt
end BATS

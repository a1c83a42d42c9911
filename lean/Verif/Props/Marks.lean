import Verif.Model.Marks
import Verif.Props.Text
/-!
# C117: marks of values inside of values
-/

namespace Verif.Text
open Verif.Funcs

/-- The value `w` is `v` or somewhere inside of it. -/
inductive Within : MVal → MVal → Prop where
  | self (v : MVal) : Within v v
  | part {w p v : MVal} (h : p ∈ v.parts) (hw : Within w p) : Within w v

mutual
/-- What `Contains` computes, with the value of `ret` before. -/
theorem walk_contains (m : Mark) : ∀ (v : MVal) (ret : Bool),
    walk (fun v ret => if hasMark v m then (false, true) else (true, ret)) v ret = true ↔
      ret = true ∨ ∃ w, Within w v ∧ m ∈ w.marks
  | .mk ms ps, ret => by
    unfold walk
    by_cases h : m ∈ ms
    · have h' : hasMark (.mk ms ps) m = true := List.contains_iff_mem.2 h
      simp only [h', if_true, true_iff]
      exact .inr ⟨_, .self _, h⟩
    · have h' : ¬hasMark (.mk ms ps) m = true := fun hc => h (List.contains_iff_mem.1 hc)
      simp only [if_neg h']
      rw [walkL_contains m ps ret]
      constructor
      · rintro (hr | ⟨p, hp, w, hw, hm⟩)
        · exact .inl hr
        · exact .inr ⟨w, .part hp hw, hm⟩
      · rintro (hr | ⟨w, hw, hm⟩)
        · exact .inl hr
        · cases hw with
          | self => exact absurd hm h
          | part hp hw => exact .inr ⟨_, hp, w, hw, hm⟩
/-- The same for the parts of a value. -/
theorem walkL_contains (m : Mark) : ∀ (ps : List MVal) (ret : Bool),
    walkL (fun v ret => if hasMark v m then (false, true) else (true, ret)) ps ret = true ↔
      ret = true ∨ ∃ p, p ∈ ps ∧ ∃ w, Within w p ∧ m ∈ w.marks
  | [], ret => by simp [walkL]
  | p :: ps, ret => by
    unfold walkL
    rw [walkL_contains m ps, walk_contains m p]
    simp only [List.mem_cons, exists_eq_or_imp, or_assoc]
end

/-- **C117.**  `Contains` says whether the value, or any value in it at any depth, has the mark. -/
theorem C117_contains (v : MVal) (m : Mark) : containsMark v m = true ↔ ∃ w, Within w v ∧ m ∈ w.marks := by
  unfold containsMark
  rw [walk_contains]
  simp

mutual
/-- The marks at any depth are those of the values inside. -/
theorem mem_deepMarks (m : Mark) : ∀ v : MVal, m ∈ v.deepMarks ↔ ∃ w, Within w v ∧ m ∈ w.marks
  | .mk ms ps => by
    unfold MVal.deepMarks
    rw [List.mem_append, mem_deepMarksL m ps]
    constructor
    · rintro (h | ⟨p, hp, w, hw, hm⟩)
      · exact ⟨_, .self _, h⟩
      · exact ⟨w, .part hp hw, hm⟩
    · rintro ⟨w, hw, hm⟩
      cases hw with
      | self => exact .inl hm
      | part hp hw => exact .inr ⟨_, hp, w, hw, hm⟩
/-- The same for a list of values. -/
theorem mem_deepMarksL (m : Mark) : ∀ ps : List MVal, m ∈ MVal.deepMarksL ps ↔ ∃ p, p ∈ ps ∧ ∃ w, Within w p ∧ m ∈ w.marks
  | [] => by simp [MVal.deepMarksL]
  | p :: ps => by
    unfold MVal.deepMarksL
    rw [List.mem_append, mem_deepMarksL m ps, mem_deepMarks m p]
    simp only [List.mem_cons, exists_eq_or_imp]
end

mutual
/-- No value inside of an unmarked one has marks. -/
theorem unmark_within : ∀ (v w : MVal), Within w v.unmarkDeep → w.marks = []
  | .mk ms ps, w, h => by
    unfold MVal.unmarkDeep at h
    cases h with
    | self => rfl
    | part hp hw => exact unmark_withinL ps w _ hp hw
/-- The same for the parts of a value. -/
theorem unmark_withinL : ∀ (ps : List MVal) (w p : MVal), p ∈ MVal.unmarkDeepL ps → Within w p → w.marks = []
  | [], w, p, hp, _ => by simp [MVal.unmarkDeepL] at hp
  | q :: ps, w, p, hp, hw => by
    unfold MVal.unmarkDeepL at hp
    rcases List.mem_cons.1 hp with rfl | hp
    · exact unmark_within q w hw
    · exact unmark_withinL ps w p hp hw
end

/-- Without its marks a value contains no mark, and the marks that were taken off are exactly those it contained. -/
theorem C117_unmark (v : MVal) (m : Mark) :
    containsMark v.unmarkDeep m = false ∧ (m ∈ v.deepMarks ↔ containsMark v m = true) := by
  refine ⟨?_, by rw [mem_deepMarks, C117_contains]⟩
  cases h : containsMark v.unmarkDeep m with
  | false => rfl
  | true =>
    obtain ⟨w, hw, hm⟩ := (C117_contains _ _).1 h
    rw [unmark_within v w hw] at hm
    cases hm

/-- `Contains` finds what `Has` finds, but not the other way around: marks of parts are not marks of the value. -/
theorem C117_has {v : MVal} {m : Mark} (h : hasMark v m = true) : containsMark v m = true :=
  (C117_contains v m).2 ⟨v, .self v, List.contains_iff_mem.1 h⟩

/-- A list in a list whose second element is sensitive. -/
def exNested : MVal := .mk [] [.mk [b "TypeType"] [], .mk [] [.mk [] [], .mk [sensitiveMark] []], .mk [] []]

example : containsMark exNested sensitiveMark = true ∧ hasMark exNested sensitiveMark = false ∧
    containsMark exNested (b "other") = false ∧ containsMark exNested.unmarkDeep sensitiveMark = false := by decide +kernel

/-- The errors of the conversions do not depend on a value with something sensitive in it at any depth, beyond its type. -/
theorem C117_secret {A R : Type} (cv : Convert A R) (quote : Bytes → Bytes) {want : Ty} {x y : ToArg A} {v w : MVal}
    (hxv : x.deepMarks = v.deepMarks) (hyw : y.deepMarks = w.deepMarks) (ht : x.ty = y.ty)
    (hv : ∃ u, Within u v ∧ sensitiveMark ∈ u.marks) (hw : ∃ u, Within u w ∧ sensitiveMark ∈ u.marks) {m m' : Bytes}
    (h : toFunc cv quote want x = .error m) (h' : toFunc cv quote want y = .error m') : m = m' :=
  C102_secret cv quote ht (by rw [hxv]; exact (mem_deepMarks _ _).2 hv) (by rw [hyw]; exact (mem_deepMarks _ _).2 hw) h h'

example : ∃ u, Within u exNested ∧ sensitiveMark ∈ u.marks :=
  (C117_contains _ _).1 (by decide +kernel)

end Verif.Text

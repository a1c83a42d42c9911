import Verif.Spec.Length
/-!
# C103: length

`length(v)` is an error exactly for null and for values of a type without length; a known result is the length of whatever
`v` turns out to be; and only a value of unknown type, an unknown value or a set with unknown parts has an unknown length.
The result carries exactly the marks of the value itself.
-/
namespace Verif.Length
open Verif.Funcs

variable {ε : Type} {chars : Bytes → Nat} {whole : ε → Bool} {ref : Ref ε}

theorem RefL.length_eq {l m : List ε} (h : RefL ref l m) : m.length = l.length := by
  induction h with
  | nil => rfl
  | cons _ _ ih => simp [ih]

theorem RefL.whole_eq (hw : ∀ y x, whole y = true → ref y x → x = y) {l m : List ε} (h : RefL ref l m) (ha : l.all whole = true) : m = l := by
  induction h with
  | nil => rfl
  | cons h1 _ ih =>
    simp only [List.all_cons, Bool.and_eq_true] at ha
    rw [hw _ _ ha.1 h1, ih ha.2]

theorem nodup_length {s l : List ε} (hs : s.Nodup) (hl : l.Nodup) (h : ∀ x, x ∈ s ↔ x ∈ l) : s.length = l.length :=
  ((List.perm_ext_iff_of_nodup hs hl).2 h).length_eq

theorem keys_length {m m' : GoMap Bytes ε} (h : m.map (·.1) = m'.map (·.1)) : m'.length = m.length := by
  simpa using (congrArg List.length h).symm

/-- **C103, errors**: exactly for null and for types without length. -/
theorem C103_error {x : Marked (LV ε)} : length chars whole x = .error () ↔ ¬ Measurable x.v := by
  obtain ⟨v, ms⟩ := x
  unfold length
  cases v with
  | dyn n =>
    cases n
    · simpa [LV.isNull] using Measurable.dyn
    · simp only [LV.isNull, if_true, true_iff]; intro h; cases h
  | other v =>
    cases v <;> simp only [LV.isNull, K.isNull, if_true, Bool.false_eq_true, if_false, true_iff] <;> (intro h; cases h)
  | str v =>
    cases v <;> simp only [LV.isNull, K.isNull, if_true, Bool.false_eq_true, if_false, true_iff, reduceCtorEq, false_iff, Classical.not_not]
    · exact .str (by simp)
    · intro h; cases h with | str h => exact h rfl
    · exact .str (by simp)
  | tuple n v =>
    cases v <;> simp only [LV.isNull, K.isNull, if_true, Bool.false_eq_true, if_false, true_iff, reduceCtorEq, false_iff, Classical.not_not]
    · exact .tuple (by simp)
    · intro h; cases h with | tuple h => exact h rfl
    · exact .tuple (by simp)
  | object n v =>
    cases v <;> simp only [LV.isNull, K.isNull, if_true, Bool.false_eq_true, if_false, true_iff, reduceCtorEq, false_iff, Classical.not_not]
    · exact .object (by simp)
    · intro h; cases h with | object h => exact h rfl
    · exact .object (by simp)
  | list v =>
    cases v <;> simp only [LV.isNull, K.isNull, if_true, Bool.false_eq_true, if_false, true_iff, reduceCtorEq, false_iff, Classical.not_not]
    · exact .list (by simp)
    · intro h; cases h with | list h => exact h rfl
    · exact .list (by simp)
  | map v =>
    cases v <;> simp only [LV.isNull, K.isNull, if_true, Bool.false_eq_true, if_false, true_iff, reduceCtorEq, false_iff, Classical.not_not]
    · exact .map (by simp)
    · intro h; cases h with | map h => exact h rfl
    · exact .map (by simp)
  | set v =>
    cases v <;> simp only [LV.isNull, K.isNull, if_true, Bool.false_eq_true, if_false, true_iff, reduceCtorEq, false_iff, Classical.not_not]
    · exact .set (by simp)
    · intro h; cases h with | set h => exact h rfl
    · exact .set (by simp)

/-- **C103, marks**: the result carries the marks of the value, no more and no fewer. -/
theorem C103_marks {x : Marked (LV ε)} {r : Marked (K Nat)} (h : length chars whole x = .ok r) : r.marks = x.marks := by
  unfold length at h
  split at h
  · cases h
  · split at h <;> cases h <;> rfl

/-- **C103, soundness**: a length that is given is the length of whatever the value turns out to be. -/
theorem C103_sound (hw : ∀ y x, whole y = true → ref y x → x = y) {x : Marked (LV ε)} {n : Nat} {ms : List Mark}
    (h : length chars whole x = .ok ⟨.val n, ms⟩) {w : LV ε} (hb : Becomes ref x.v w) : Len chars w n := by
  obtain ⟨v, ms'⟩ := x
  simp only at hb
  cases hb with
  | tuple hl => cases h; rw [← hl.length_eq]; exact .tuple _ _
  | tupleUnk l => cases h; exact .tuple _ _
  | objectUnk m => cases h; simpa using Len.object _ m
  | object hk hl =>
    cases h
    rw [List.length_map, ← keys_length hk]
    exact .object _ _
  | str s => cases h; exact .str _
  | list hl => cases h; rw [← hl.length_eq]; exact .list _
  | map hk hl => cases h; rw [← keys_length hk]; exact .map _
  | @set l l' s hn hl hs hm =>
    simp only [length, LV.isNull, K.isNull, lengthSet, Bool.false_eq_true, if_false] at h
    split at h
    · next hc =>
      cases h
      have : s.length = l.length := by
        rw [Bool.or_eq_true] at hc
        rcases hc with hc | hc
        · have h1 : l'.length = 1 := by rw [hl.length_eq]; simpa using hc
          rw [nodup_length hs ?_ hm, hl.length_eq]
          match l', h1 with
          | [a], _ => simp
        · have := hl.whole_eq hw hc
          subst this
          exact nodup_length hs hn hm
      rw [← this]
      exact .set _
    · cases h
  | dynStr => cases h
  | dynTuple => cases h
  | dynObject => cases h
  | dynList => cases h
  | dynMap => cases h
  | dynSet => cases h
  | dynOther => cases h
  | strUnk => cases h
  | listUnk => cases h
  | mapUnk => cases h
  | setUnk => cases h
  | otherUnk => cases h
  | other => cases h

/-- **C103, precision**: an unknown result for a value other than a set means that the value can turn out to have different
lengths. -/
theorem C103_precise (hc : ∃ s t, chars s ≠ chars t) [Inhabited ε] {x : Marked (LV ε)} {ms : List Mark}
    (h : length chars whole x = .ok ⟨.unk, ms⟩) (hs : ∀ l, x.v ≠ .set (.val l)) :
    ∃ w w' n n', Becomes ref x.v w ∧ Becomes ref x.v w' ∧ Len chars w n ∧ Len chars w' n' ∧ n ≠ n' := by
  obtain ⟨v, ms'⟩ := x
  simp only at hs ⊢
  cases v with
  | dyn b =>
    cases b
    · exact ⟨_, _, _, _, .dynList [], .dynList [default], .list _, .list _, by simp⟩
    · cases h
  | other v => cases v <;> cases h
  | str v =>
    cases v with
    | unk => obtain ⟨s, t, hst⟩ := hc; exact ⟨_, _, _, _, .strUnk s, .strUnk t, .str _, .str _, hst⟩
    | null => cases h
    | val s => cases h
  | tuple n v => cases v <;> cases h
  | object n v => cases v <;> cases h
  | list v =>
    cases v with
    | unk => exact ⟨_, _, _, _, .listUnk [], .listUnk [default], .list _, .list _, by simp⟩
    | null => cases h
    | val s => cases h
  | map v =>
    cases v with
    | unk => exact ⟨_, _, _, _, .mapUnk [], .mapUnk [([], default)], .map _, .map _, by simp⟩
    | null => cases h
    | val s => cases h
  | set v =>
    cases v with
    | unk => exact ⟨_, _, _, _, .setUnk [] (by simp), .setUnk [default] (by simp), .set _, .set _, by simp⟩
    | null => cases h
    | val s => exact absurd rfl (hs s)

/-- **C103, precision for sets**: of a known set the length is unknown only if it has at least two elements and one of them is
not wholly known. -/
theorem C103_set {l : List ε} {ms : List Mark} {r : Marked (K Nat)} (h : length chars whole ⟨.set (.val l), ms⟩ = .ok r) :
    r.v = .unk ↔ 2 ≤ l.length ∧ ∃ y ∈ l, whole y = false := by
  simp only [length, LV.isNull, K.isNull, lengthSet, Bool.false_eq_true, if_false] at h
  cases h
  simp only
  split
  · next hc =>
    simp only [Bool.or_eq_true, decide_eq_true_eq, List.all_eq_true] at hc
    simp only [reduceCtorEq, false_iff, not_and, not_exists]
    rintro h2 y hy hn
    rcases hc with hc | hc
    · omega
    · rw [hc y hy] at hn; cases hn
  · next hc =>
    simp only [true_iff]
    simp only [Bool.or_eq_true, decide_eq_true_eq, not_or, List.all_eq_true, Classical.not_forall] at hc
    obtain ⟨h1, y, hy, hn⟩ := hc
    refine ⟨?_, y, hy, by simpa using hn⟩
    have : l.length ≠ 0 := by intro h0; rw [List.length_eq_zero_iff] at h0; subst h0; cases hy
    omega

/-- Elements that are strings, known or not. -/
def exRef (y x : K Bytes) : Prop := ∃ s, x = .val s ∧ (y = .unk ∨ y = .val s)

example : ∀ y x : K Bytes, (!y.isUnk) = true → exRef y x → x = y := by
  rintro y x h ⟨s, rfl, rfl | rfl⟩
  · cases h
  · rfl
example : length List.length (fun y : K Bytes => !y.isUnk) ⟨.set (.val [.unk]), [sensitiveMark]⟩ = .ok ⟨.val 1, [sensitiveMark]⟩ := by rfl
example : length List.length (fun y : K Bytes => !y.isUnk) ⟨.set (.val [.unk, .val []]), []⟩ = .ok ⟨.unk, []⟩ := by rfl
/-- Such a set can have one element or two. -/
example : Becomes exRef (.set (.val [.unk, .val []])) (.set (.val [.val []])) ∧
    Becomes exRef (.set (.val [.unk, .val []])) (.set (.val [.val [1], .val []])) := by
  constructor
  · exact .set (l' := [.val [], .val []]) (by decide) (.cons ⟨[], rfl, .inl rfl⟩ (.cons ⟨[], rfl, .inr rfl⟩ .nil)) (by decide) (by simp)
  · exact .set (l' := [.val [1], .val []]) (by decide) (.cons ⟨[1], rfl, .inl rfl⟩ (.cons ⟨[], rfl, .inr rfl⟩ .nil)) (by decide) (by simp)
example : length List.length (fun y : K Bytes => !y.isUnk) ⟨.tuple 3 .unk, []⟩ = .ok ⟨.val 3, []⟩ := by rfl
example : length List.length (fun y : K Bytes => !y.isUnk) ⟨.list .unk, []⟩ = .ok ⟨.unk, []⟩ := by rfl
example : ∃ s t : Bytes, s.length ≠ t.length := ⟨[], [1], by simp⟩
example : length List.length (fun y : K Bytes => !y.isUnk) ⟨.other (.val ()), []⟩ = .error () := by rfl

end Verif.Length

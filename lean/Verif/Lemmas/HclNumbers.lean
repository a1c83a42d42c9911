import Verif.Spec.HclNumbers
import Verif.Lemmas.HclRound
set_option linter.unusedSimpArgs false
/-! Numbers in the text that `Marshal` writes. -/
namespace Verif.Hcl

theorem whole_den {q : Rat} : IsWhole q ↔ q.den = 1 := by
  rw [Rat.den_eq_one_iff]
  constructor
  · rintro ⟨n, rfl⟩; simp
  · intro h; exact ⟨q.num, h.symm⟩

theorem int64_den {q : Rat} : IsInt64 q ↔ q.den = 1 ∧ fitsI64 q.num := by
  constructor
  · rintro ⟨n, rfl, h1, h2⟩
    refine ⟨by simp, ?_⟩
    show (decide _ && decide _) = true
    rw [Bool.and_eq_true, decide_eq_true_eq, decide_eq_true_eq, Rat.num_intCast]
    exact ⟨h1, h2⟩
  · rintro ⟨h, h2⟩
    simp only [fitsI64, Bool.and_eq_true, decide_eq_true_eq] at h2
    exact ⟨q.num, ((Rat.den_eq_one_iff q).1 h).symm, h2⟩

theorem toNative_error {q : Rat} : ctyNumberToNative q = .error () ↔ BadFloat q := by
  unfold ctyNumberToNative BadFloat
  rw [whole_den, int64_den]
  by_cases h1 : q.den = 1
  · by_cases h2 : fitsI64 q.num
    · simp [h1, h2]
    · simp [h1, h2]
  · by_cases h2 : q < 0
    · simp [h1, h2]
    · simp only [h1, h2, false_and, if_false, and_false, false_or, iff_false]
      split <;> simp

theorem toNative_ok {q : Rat} {v : GV} (h : ctyNumberToNative q = .ok v) : (∃ n, v = .int n) ∨ ∃ r, v = .flt r := by
  unfold ctyNumberToNative at h
  split at h
  · cases h; exact .inl ⟨_, rfl⟩
  split at h
  · cases h
  split at h
  · cases h
  split at h <;> cases h <;> exact .inr ⟨_, rfl⟩

theorem toNative_int {n : Int} (h : IsInt64 n) : ctyNumberToNative n = .ok (.int n) := by
  unfold ctyNumberToNative
  rw [if_pos (int64_den.1 h)]; simp

/-! ## The type of a number -/

theorem floats_isNil (v : GV) : v.floats.isNil = v.isNil := by cases v <;> simp [GV.floats, GV.isNil]
theorem floats_isMap (v : GV) : v.floats.isMap = v.isMap := by cases v <;> simp [GV.floats, GV.isMap]

theorem floats_all (m : List (Bytes × GV)) : (floatsM m).all (fun e => e.2.isMap) = m.all (fun e => e.2.isMap) := by
  induction m with
  | nil => rfl
  | cons e m ih => obtain ⟨k, v⟩ := e; simp only [floatsM, List.all_cons, ih, floats_isMap]

theorem floats_empty (m : List (Bytes × GV)) : (floatsM m).isEmpty = m.isEmpty := by
  cases m with
  | nil => rfl
  | cons e m => rfl

theorem floats_hash (d : Nat) (m : List (Bytes × GV)) : hashAll d (floatsM m) = hashAll d m := by
  simp only [hashAll, floats_all, floats_empty]

theorem Ints64.elem {v : GV} {l : List GV} (h : Ints64 (.list (v :: l))) : Ints64 v ∧ Ints64 (.list l) :=
  ⟨fun n o => h n (.elem (by simp) o), fun n o => by
    cases o with
    | elem hm o => exact h n (.elem (List.mem_cons_of_mem _ hm) o)⟩

theorem Ints64.member {k : Bytes} {v : GV} {m : List (Bytes × GV)} (h : Ints64 (.map ((k, v) :: m))) :
    Ints64 v ∧ Ints64 (.map m) :=
  ⟨fun n o => h n (.member (k := k) (by simp) o), fun n o => by
    cases o with
    | member hm o => exact h n (.member (List.mem_cons_of_mem _ hm) o)⟩

theorem scalarText_floats {n : Int} (h : IsInt64 n) : scalarText (.flt n) = scalarText (.int n) := by
  simp only [scalarText, toNative_int h]

mutual
theorem encV_floats (level : Nat) (kn : Option Bytes) : ∀ v, Ints64 v → encV level kn v.floats = encV level kn v
  | .nil, _ => rfl
  | .nilList, _ => rfl
  | .nilMap, _ => rfl
  | .str _, _ => rfl
  | .bool _, _ => rfl
  | .flt _, _ => rfl
  | .int n, h => by
    have e : (GV.flt n).zeroScalar = (GV.int n).zeroScalar := by simp [GV.zeroScalar]
    simp only [GV.floats, encV, scalarText_floats (h n .here), e]
  | .list l, h => by simp only [GV.floats, encV, encList_floats level l h]
  | .map m, h => by simp only [GV.floats, encV, encMap_floats level kn m h]
theorem encList_floats (level : Nat) : ∀ l, Ints64 (.list l) → encList level (floatsL l) = encList level l
  | [], _ => rfl
  | v :: l, h => by
    simp only [floatsL, encList, encV_floats _ _ v h.elem.1, encList_floats level l h.elem.2]
theorem encMap_floats (level : Nat) (kn : Option Bytes) : ∀ m, Ints64 (.map m) →
    encMap level kn (floatsM m) = encMap level kn m
  | [], _ => rfl
  | (k, v) :: m, h => by
    simp only [floatsM, encMap, floats_isNil, encShort_floats k level v h.member.1, encLine_floats k 0 level kn v h.member.1,
      encMap_floats level kn m h.member.2]
theorem encShort_floats (name : Bytes) (level : Nat) : ∀ v, Ints64 v → encShort name level v.floats = encShort name level v
  | .nil, _ => rfl
  | .nilList, _ => rfl
  | .nilMap, _ => rfl
  | .str _, _ => rfl
  | .bool _, _ => rfl
  | .flt _, _ => rfl
  | .int n, h => by simp only [GV.floats, encShort, scalarText_floats (h n .here)]
  | .list l, h => by simp only [GV.floats, encShort, encList_floats _ l h]
  | .map m, h => by simp only [GV.floats, encShort, encMap_floats _ _ m h]
theorem encLine_floats (name : Bytes) (depth level : Nat) (kn : Option Bytes) : ∀ v, Ints64 v →
    encLine name depth level kn v.floats = encLine name depth level kn v
  | .nil, _ => rfl
  | .nilList, _ => rfl
  | .nilMap, _ => rfl
  | .str _, _ => rfl
  | .bool _, _ => rfl
  | .flt _, _ => rfl
  | .int n, h => by simp only [GV.floats, encLine, scalarText_floats (h n .here)]
  | .list l, h => by simp only [GV.floats, encLine, encList_floats _ l h]
  | .map m, h => by
    simp only [GV.floats, encLine, floats_hash, encMap_floats _ _ m h, encHash_floats name depth level m h]
theorem encHash_floats (name : Bytes) (depth level : Nat) : ∀ m, Ints64 (.map m) →
    encHash name depth level (floatsM m) = encHash name depth level m
  | [], _ => rfl
  | (k, v) :: m, h => by
    simp only [floatsM, encHash, encLine_floats _ _ level none v h.member.1, encHash_floats name depth level m h.member.2]
end

/-! ## Failures -/

/-- Some part is a number that cannot be written. -/
def Unwritten (v : GV) : Prop := ∃ q, Occurs (.flt q) v ∧ BadFloat q

theorem bad_elem {v : GV} {l : List GV} : Unwritten (.list (v :: l)) ↔ Unwritten v ∨ Unwritten (.list l) := by
  constructor
  · rintro ⟨q, o, hq⟩
    cases o with
    | elem hm o =>
      rcases List.mem_cons.1 hm with rfl | hm
      · exact .inl ⟨q, o, hq⟩
      · exact .inr ⟨q, .elem hm o, hq⟩
  · rintro (⟨q, o, hq⟩ | ⟨q, o, hq⟩)
    · exact ⟨q, .elem (by simp) o, hq⟩
    · cases o with
      | elem hm o => exact ⟨q, .elem (List.mem_cons_of_mem _ hm) o, hq⟩

theorem bad_member {k : Bytes} {v : GV} {m : List (Bytes × GV)} : Unwritten (.map ((k, v) :: m)) ↔ Unwritten v ∨ Unwritten (.map m) := by
  constructor
  · rintro ⟨q, o, hq⟩
    cases o with
    | member hm o =>
      rcases List.mem_cons.1 hm with e | hm
      · cases e; exact .inl ⟨q, o, hq⟩
      · exact .inr ⟨q, .member hm o, hq⟩
  · rintro (⟨q, o, hq⟩ | ⟨q, o, hq⟩)
    · exact ⟨q, .member (k := k) (by simp) o, hq⟩
    · cases o with
      | member hm o => exact ⟨q, .member (List.mem_cons_of_mem _ hm) o, hq⟩

theorem bad_nil : ¬ Unwritten (.list []) := by
  rintro ⟨q, o, -⟩
  cases o with
  | elem hm _ => cases hm

theorem bad_empty : ¬ Unwritten (.map []) := by
  rintro ⟨q, o, -⟩
  cases o with
  | member hm _ => cases hm

theorem bad_flt {q : Rat} : Unwritten (.flt q) ↔ BadFloat q := by
  constructor
  · rintro ⟨q', o, h⟩; cases o; exact h
  · exact fun h => ⟨q, .here, h⟩

theorem not_bad {v : GV} (hl : ∀ l, v ≠ .list l) (hm : ∀ m, v ≠ .map m) (hf : ∀ q, v ≠ .flt q) : ¬ Unwritten v := by
  rintro ⟨q, o, -⟩
  cases o with
  | here => exact hf q rfl
  | elem => exact hl _ rfl
  | member => exact hm _ rfl

theorem scalar_flt (q : Rat) : (scalarText (.flt q)).getD (.error ()) = .error () ↔ BadFloat q := by
  rw [← toNative_error]
  simp only [scalarText, Option.getD_some]
  cases h : ctyNumberToNative q with
  | error e => simp
  | ok v => rcases toNative_ok h with ⟨n, rfl⟩ | ⟨r, rfl⟩ <;> simp

theorem map_error {α β : Type} {x : Except Unit α} {f : α → β} : x.map f = .error () ↔ x = .error () := by
  cases x <;> simp [Except.map]

theorem bind_error {α β γ : Type} {x : Except Unit α} {y : Except Unit β} {f : α → β → γ} :
    (x.bind fun a => y.map (f a)) = .error () ↔ x = .error () ∨ y = .error () := by
  cases x <;> cases y <;> simp [Except.map, Except.bind]

mutual
theorem encV_error (level : Nat) (kn : Option Bytes) : ∀ v, encV level kn v = .error () ↔ Unwritten v
  | .nil => by simp [encV, not_bad]
  | .nilList => by simp [encV, not_bad]
  | .nilMap => by simp [encV, not_bad]
  | .str s => by
    rw [iff_false_intro (not_bad (by simp) (by simp) (by simp)), iff_false]
    unfold encV; split <;> simp [scalarText, Except.map]
  | .bool s => by
    rw [iff_false_intro (not_bad (by simp) (by simp) (by simp)), iff_false]
    unfold encV; split <;> simp [scalarText, Except.map]
  | .int s => by
    rw [iff_false_intro (not_bad (by simp) (by simp) (by simp)), iff_false]
    unfold encV; split <;> simp [scalarText, Except.map]
  | .flt q => by
    unfold encV
    split
    · rename_i h
      simp only [GV.zeroScalar, decide_eq_true_eq] at h
      subst h
      simp only [reduceCtorEq, bad_flt, false_iff]
      rintro (⟨h, -⟩ | ⟨-, h⟩)
      · exact h ⟨0, by simp⟩
      · exact h ⟨0, by simp, by decide, by decide⟩
    · rw [map_error, scalar_flt, bad_flt]
  | .list l => by simp only [encV, map_error, encList_error level l]
  | .map m => by simp only [encV, map_error, encMap_error level kn m]
theorem encList_error (level : Nat) : ∀ l, encList level l = .error () ↔ Unwritten (.list l)
  | [] => by simp [encList, bad_nil]
  | v :: l => by simp only [encList, bind_error, encV_error _ _ v, encList_error level l, bad_elem]
theorem encMap_error (level : Nat) (kn : Option Bytes) : ∀ m, encMap level kn m = .error () ↔ Unwritten (.map m)
  | [] => by simp [encMap, bad_empty]
  | (k, v) :: m => by
    simp only [encMap, bind_error, encMap_error level kn m, bad_member]
    refine or_congr_left ?_
    split
    · rename_i h
      cases v <;> simp [GV.isNil] at h; simp [not_bad]
    · split
      · exact encShort_error k level v
      · exact encLine_error k 0 level kn v
theorem encShort_error (name : Bytes) (level : Nat) : ∀ v, encShort name level v = .error () ↔ Unwritten v
  | .nil => by simp [encShort, not_bad]
  | .nilList => by simp [encShort, not_bad]
  | .nilMap => by simp [encShort, not_bad]
  | .str _ => by simp [encShort, not_bad, scalarText, Except.map]
  | .bool _ => by simp [encShort, not_bad, scalarText, Except.map]
  | .int _ => by simp [encShort, not_bad, scalarText, Except.map]
  | .flt q => by simp only [encShort, map_error, scalar_flt, bad_flt]
  | .list l => by simp only [encShort, map_error, encList_error _ l]
  | .map m => by simp only [encShort, map_error, encMap_error _ _ m]
theorem encLine_error (name : Bytes) (depth level : Nat) (kn : Option Bytes) : ∀ v,
    encLine name depth level kn v = .error () ↔ Unwritten v
  | .nil => by simp [encLine, not_bad]
  | .nilList => by simp [encLine, not_bad]
  | .nilMap => by simp [encLine, not_bad]
  | .str _ => by simp [encLine, not_bad, scalarText, Except.map]
  | .bool _ => by simp [encLine, not_bad, scalarText, Except.map]
  | .int _ => by simp [encLine, not_bad, scalarText, Except.map]
  | .flt q => by simp only [encLine, map_error, scalar_flt, bad_flt]
  | .list l => by simp only [encLine, map_error, encList_error _ l]
  | .map m => by
    unfold encLine
    split
    · exact encHash_error name depth level m
    · simp only [map_error, encMap_error _ _ m]
theorem encHash_error (name : Bytes) (depth level : Nat) : ∀ m, encHash name depth level m = .error () ↔ Unwritten (.map m)
  | [] => by simp [encHash, bad_empty]
  | (k, v) :: m => by
    simp only [encHash, bind_error, encLine_error _ _ level none v, encHash_error name depth level m, bad_member]
end

end Verif.Hcl

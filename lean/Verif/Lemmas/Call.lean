import Verif.Lemmas.HclDecode
import Verif.Lemmas.HclStructDoc
import Verif.Spec.Call
set_option linter.unusedSimpArgs false
/-! Evaluation of expressions with calls. -/
namespace Verif.Fn
open Verif.Hcl
open Det (insertK ltB ltB_lin get?_insertK)

theorem bind_ok {ε α β : Type} {x : Except ε α} {f : α → Except ε β} {y : β} :
    x.bind f = .ok y ↔ ∃ a, x = .ok a ∧ f a = .ok y := by
  cases x <;> simp [Except.bind]

theorem map_ok {ε α β : Type} {x : Except ε α} {f : α → β} {y : β} :
    x.map f = .ok y ↔ ∃ a, x = .ok a ∧ f a = y := by
  cases x <;> simp [Except.map]

theorem ofOption_ok {α : Type} {o : Option α} {a : α} : ofOption o = .ok a ↔ o = some a := by
  cases o <;> simp [ofOption]

/-- Storing members one after the other. -/
def storeAll (es acc : List (Bytes × Cty)) : List (Bytes × Cty) := es.foldl (fun m e => insertK ltB e.1 e.2 m) acc

theorem storeAll_sorted (es : List (Bytes × Cty)) : ∀ {acc}, SortedK acc → SortedK (storeAll es acc) := by
  induction es with
  | nil => intro acc h; exact h
  | cons e es ih => intro acc h; exact ih h.insert

theorem get?_storeAll (es : List (Bytes × Cty)) (k : Bytes) : ∀ acc, GoMap.get? (storeAll es acc) k = (lastOf k es).or (GoMap.get? acc k) := by
  induction es with
  | nil => intro acc; simp [storeAll, lastOf]
  | cons e es ih =>
    intro acc
    have := ih (insertK ltB e.1 e.2 acc)
    rw [storeAll, List.foldl_cons]
    rw [storeAll] at this
    rw [this, get?_insertK, lastOf]
    cases lastOf k es with
    | some v => simp
    | none => by_cases h : e.1 = k <;> simp [h]

theorem isObj_storeAll (es : List (Bytes × Cty)) : IsObj es (storeAll es []) :=
  ⟨storeAll_sorted es (by simp [SortedK]), fun k => by rw [get?_storeAll]; simp [GoMap.get?]⟩

theorem IsObj.eq {es r : List (Bytes × Cty)} (h : IsObj es r) : r = storeAll es [] :=
  SortedK.ext h.1 (isObj_storeAll es).1 fun k => by rw [h.2, (isObj_storeAll es).2]

theorem valueK_eq {env : Env} {fs} {x : X} (h : ∀ n, x ≠ .var n) : valueK env fs x = value env fs x := by
  cases x with
  | var n => exact absurd rfl (h n)
  | _ => simp only [valueK, value]

theorem callHcl_ok {fs : Option (GoMap Bytes HclFn)} {nfc n vs v} : callHcl fs n vs = .ok v ↔ Means nfc (.hcl fs) n vs v := by
  cases fs with
  | none => simp [callHcl, Means]
  | some m =>
    simp only [callHcl, Means, Option.some.injEq, exists_and_left, exists_eq_left']
    cases GoMap.get? m n <;> simp [ofOption_ok]

section
variable {env : Env} {fs : Option (GoMap Bytes HclFn)}

/-- The key, given that of its expression. -/
theorem key_iff {k : X} {s : Bytes} (hv : ∀ v, value env fs k = .ok v ↔ Den env (Means env.nfc (.hcl fs)) k v) :
    (∃ v, valueK env fs k = .ok v ∧ env.keyStr v = some s) ↔ DenK env (Means env.nfc (.hcl fs)) k s := by
  by_cases h : ∃ n, k = .var n
  · obtain ⟨n, rfl⟩ := h
    constructor
    · rintro ⟨v, h1, h2⟩
      simp only [valueK, Except.ok.injEq] at h1
      subst h1
      exact .name h2
    · intro h
      cases h with
      | name h => exact ⟨_, rfl, h⟩
      | expr h => exact absurd rfl (h n)
  · have hn : ∀ n, k ≠ .var n := fun n e => h ⟨n, e⟩
    rw [valueK_eq hn]
    constructor
    · rintro ⟨v, h1, h2⟩
      exact .expr hn ((hv v).1 h1) h2
    · intro h
      cases h with
      | name h => exact absurd rfl (hn _)
      | expr _ h1 h2 => exact ⟨_, (hv _).2 h1, h2⟩

mutual
/-- `hclsyntax` computes what the expression denotes. -/
theorem value_iff : ∀ (x : X) (v : Cty), value env fs x = .ok v ↔ Den env (Means env.nfc (.hcl fs)) x v
  | .lit w, v => by
    simp only [value, Except.ok.injEq]
    exact ⟨fun h => h ▸ .lit, fun h => by cases h; rfl⟩
  | .var n, v => by
    simp only [value, ofOption_ok]
    exact ⟨.var, fun h => by cases h; assumption⟩
  | .tuple l, v => by
    simp only [value, map_ok]
    constructor
    · rintro ⟨vs, h, rfl⟩; exact .tuple ((valueL_iff l vs).1 h)
    · intro h
      cases h with
      | tuple h => exact ⟨_, (valueL_iff l _).2 h, rfl⟩
  | .object m, v => by
    simp only [value, map_ok]
    constructor
    · rintro ⟨r, h, rfl⟩
      obtain ⟨es, h1, h2⟩ := (valueO_iff m [] r).1 h
      exact .object h1 (h2 ▸ isObj_storeAll es)
    · intro h
      cases h with
      | object h1 h2 => exact ⟨_, (valueO_iff m [] _).2 ⟨_, h1, h2.eq⟩, rfl⟩
  | .call n args, v => by
    have : value env fs (.call n args) = .ok v ↔ ∃ vs, valueL env fs args = .ok vs ∧ Means env.nfc (.hcl fs) n vs v := by
      cases fs with
      | none => simp [value, Means]
      | some m => simp only [value, bind_ok, callHcl_ok (nfc := env.nfc)]
    rw [this]
    constructor
    · rintro ⟨vs, h1, h2⟩; exact .call ((valueL_iff args vs).1 h1) h2
    · intro h
      cases h with
      | call h1 h2 => exact ⟨_, (valueL_iff args _).2 h1, h2⟩
  | .op o args, v => by
    simp only [value, bind_ok, ofOption_ok]
    constructor
    · rintro ⟨vs, h1, h2⟩; exact .op ((valueL_iff args vs).1 h1) h2
    · intro h
      cases h with
      | op h1 h2 => exact ⟨_, (valueL_iff args _).2 h1, h2⟩
termination_by structural x => x
theorem valueL_iff : ∀ (l : List X) (vs : List Cty), valueL env fs l = .ok vs ↔ DenL env (Means env.nfc (.hcl fs)) l vs
  | [], vs => by
    simp only [valueL, Except.ok.injEq]
    exact ⟨fun h => h ▸ .nil, fun h => by cases h; rfl⟩
  | x :: l, vs => by
    simp only [valueL, bind_ok, map_ok]
    constructor
    · rintro ⟨v, h1, ws, h2, rfl⟩; exact .cons ((value_iff x v).1 h1) ((valueL_iff l ws).1 h2)
    · intro h
      cases h with
      | cons h1 h2 => exact ⟨_, (value_iff x _).2 h1, _, (valueL_iff l _).2 h2, rfl⟩
termination_by structural l => l
theorem valueO_iff : ∀ (m : List (X × X)) (acc r : List (Bytes × Cty)), valueO env fs m acc = .ok r ↔
    ∃ es, DenO env (Means env.nfc (.hcl fs)) m es ∧ r = storeAll es acc
  | [], acc, r => by
    simp only [valueO, Except.ok.injEq]
    constructor
    · rintro rfl; exact ⟨[], .nil, rfl⟩
    · rintro ⟨es, h, rfl⟩; cases h; rfl
  | e :: m, acc, r => by
    simp only [valueO]
    rw [valueP_iff e]
    constructor
    · rintro ⟨s, v, h1, h2, h3⟩
      obtain ⟨es, h4, rfl⟩ := (valueO_iff m _ r).1 h3
      exact ⟨(s, v) :: es, .cons h1 h2 h4, rfl⟩
    · rintro ⟨es, h, rfl⟩
      cases h with
      | cons h1 h2 h3 => exact ⟨_, _, h1, h2, (valueO_iff m _ _).2 ⟨_, h3, rfl⟩⟩
termination_by structural m => m
theorem valueP_iff : ∀ (p : X × X) (next : Bytes → Cty → Except Fail (List (Bytes × Cty))) (r : List (Bytes × Cty)),
    valueP env fs p next = .ok r ↔
    ∃ s v, DenK env (Means env.nfc (.hcl fs)) p.1 s ∧ Den env (Means env.nfc (.hcl fs)) p.2 v ∧ next s v = .ok r
  | (k, x), next, r => by
    simp only [valueP, bind_ok, ofOption_ok]
    constructor
    · rintro ⟨kv, h1, s, h2, v, h3, h4⟩
      exact ⟨s, v, (key_iff (value_iff k)).1 ⟨kv, h1, h2⟩, (value_iff x v).1 h3, h4⟩
    · rintro ⟨s, v, h1, h2, h3⟩
      obtain ⟨kv, h4, h5⟩ := (key_iff (value_iff k)).2 h1
      exact ⟨kv, h4, s, h5, v, (value_iff x v).2 h2, h3⟩
termination_by structural p => p
end
end

section
variable {env : Env} {P : Bytes → Prop} {F G : Bytes → List Cty → Cty → Prop}

theorem key_change {k : X} {s : Bytes} (hc : CallsOnly P k) (hv : ∀ v, CallsOnly P k → Den env F k v → Den env G k v)
    (h : DenK env F k s) : DenK env G k s := by
  cases h with
  | name h => exact .name h
  | expr h1 h2 h3 => exact .expr h1 (hv _ hc h2) h3

variable (hFG : ∀ n args v, P n → F n args v → G n args v)
include hFG

set_option linter.unusedSectionVars false in
mutual
/-- Only the functions that are called matter. -/
theorem den_change : ∀ (x : X) (v : Cty), CallsOnly P x → Den env F x v → Den env G x v
  | .lit w, v => fun _ h => by cases h; exact .lit
  | .var n, v => fun _ h => by cases h; exact .var ‹_›
  | .tuple l, v => fun hc h => by
    simp only [CallsOnly] at hc
    cases h with
    | tuple h => exact .tuple (denL_change l _ hc h)
  | .object m, v => fun hc h => by
    simp only [CallsOnly] at hc
    cases h with
    | object h1 h2 => exact .object (denO_change m _ hc h1) h2
  | .call n args, v => fun hc h => by
    simp only [CallsOnly] at hc
    cases h with
    | call h1 h2 => exact .call (denL_change args _ hc.2 h1) (hFG _ _ _ hc.1 h2)
  | .op o args, v => fun hc h => by
    simp only [CallsOnly] at hc
    cases h with
    | op h1 h2 => exact .op (denL_change args _ hc h1) h2
termination_by structural x => x
theorem denL_change : ∀ (l : List X) (vs : List Cty), CallsOnlyL P l → DenL env F l vs → DenL env G l vs
  | [], vs => fun _ h => by cases h; exact .nil
  | x :: l, vs => fun hc h => by
    simp only [CallsOnlyL] at hc
    cases h with
    | cons h1 h2 => exact .cons (den_change x _ hc.1 h1) (denL_change l _ hc.2 h2)
termination_by structural l => l
theorem denO_change : ∀ (m : List (X × X)) (es : List (Bytes × Cty)), CallsOnlyO P m → DenO env F m es → DenO env G m es
  | [], es => fun _ h => by cases h; exact .nil
  | e :: m, es => fun hc h => by
    simp only [CallsOnlyO] at hc
    obtain ⟨k, x⟩ := e
    cases h with
    | cons h1 h2 h3 =>
      have := denP_change (k, x) _ _ hc.1 h1 h2
      exact .cons this.1 this.2 (denO_change m _ hc.2 h3)
termination_by structural m => m
theorem denP_change : ∀ (p : X × X) (s : Bytes) (v : Cty), CallsOnlyP P p → DenK env F p.1 s → Den env F p.2 v →
    DenK env G p.1 s ∧ Den env G p.2 v
  | (k, x), s, v => fun hc h1 h2 => by
    simp only [CallsOnlyP] at hc
    exact ⟨key_change hc.1 (fun v hc h => den_change k v hc h) h1, den_change x v hc.2 h2⟩
termination_by structural p => p
end
end

mutual
theorem callsOnly_true : ∀ x : X, CallsOnly (fun _ => True) x
  | .lit _ => by simp only [CallsOnly]
  | .var _ => by simp only [CallsOnly]
  | .tuple l => by simp only [CallsOnly]; exact callsOnlyL_true l
  | .object m => by simp only [CallsOnly]; exact callsOnlyO_true m
  | .call n args => by simp only [CallsOnly]; exact ⟨trivial, callsOnlyL_true args⟩
  | .op o args => by simp only [CallsOnly]; exact callsOnlyL_true args
termination_by structural x => x
theorem callsOnlyL_true : ∀ l : List X, CallsOnlyL (fun _ => True) l
  | [] => by simp only [CallsOnlyL]
  | x :: l => by simp only [CallsOnlyL]; exact ⟨callsOnly_true x, callsOnlyL_true l⟩
termination_by structural l => l
theorem callsOnlyO_true : ∀ m : List (X × X), CallsOnlyO (fun _ => True) m
  | [] => by simp only [CallsOnlyO]
  | e :: m => by simp only [CallsOnlyO]; exact ⟨callsOnlyP_true e, callsOnlyO_true m⟩
termination_by structural m => m
theorem callsOnlyP_true : ∀ p : X × X, CallsOnlyP (fun _ => True) p
  | (k, x) => by simp only [CallsOnlyP]; exact ⟨callsOnly_true k, callsOnly_true x⟩
termination_by structural p => p
end

/-- With no functions the value is that of any functions. -/
theorem value_none {env : Env} {F} {x : X} {v : Cty} (h : value env none x = .ok v) : Den env F x v := by
  refine den_change (P := fun _ => True) ?_ x v (callsOnly_true x) ((value_iff x v).1 h)
  rintro n args v _ ⟨t, f, h, _⟩
  cases h

theorem value_free {env : Env} {F} {x : X} {v : Cty} (hc : CallsOnly (fun _ => False) x) (h : Den env F x v) :
    value env none x = .ok v := by
  refine (value_iff x v).2 (den_change (P := fun _ => False) (fun _ _ _ h => h.elim) x v hc h)

mutual
/-- With no functions, a value means that there was no call. -/
theorem value_none_free {env : Env} : ∀ (x : X) (v : Cty), value env none x = .ok v → CallsOnly (fun _ => False) x
  | .lit w, v => fun _ => by simp only [CallsOnly]
  | .var n, v => fun _ => by simp only [CallsOnly]
  | .tuple l, v => fun h => by
    simp only [value, map_ok] at h
    obtain ⟨vs, h, _⟩ := h
    simp only [CallsOnly]; exact valueL_none_free l vs h
  | .object m, v => fun h => by
    simp only [value, map_ok] at h
    obtain ⟨r, h, _⟩ := h
    simp only [CallsOnly]; exact valueO_none_free m [] r h
  | .call n args, v => fun h => by simp [value] at h
  | .op o args, v => fun h => by
    simp only [value, bind_ok] at h
    obtain ⟨vs, h, _⟩ := h
    simp only [CallsOnly]; exact valueL_none_free args vs h
termination_by structural x => x
theorem valueL_none_free {env : Env} : ∀ (l : List X) (vs : List Cty), valueL env none l = .ok vs → CallFreeL l
  | [], vs => fun _ => by simp only [CallFreeL, CallsOnlyL]
  | x :: l, vs => fun h => by
    simp only [valueL, bind_ok, map_ok] at h
    obtain ⟨v, h1, ws, h2, _⟩ := h
    simp only [CallFreeL, CallsOnlyL]; exact ⟨value_none_free x v h1, valueL_none_free l ws h2⟩
termination_by structural l => l
theorem valueO_none_free {env : Env} : ∀ (m : List (X × X)) (acc r : List (Bytes × Cty)), valueO env none m acc = .ok r →
    CallsOnlyO (fun _ => False) m
  | [], acc, r => fun _ => by simp only [CallsOnlyO]
  | e :: m, acc, r => fun h => by
    simp only [valueO] at h
    obtain ⟨h1, s, v, h2⟩ := valueP_none_free e _ r h
    simp only [CallsOnlyO]; exact ⟨h1, valueO_none_free m _ r h2⟩
termination_by structural m => m
theorem valueP_none_free {env : Env} : ∀ (p : X × X) (next : Bytes → Cty → Except Fail (List (Bytes × Cty))) (r : List (Bytes × Cty)),
    valueP env none p next = .ok r → CallsOnlyP (fun _ => False) p ∧ ∃ s v, next s v = .ok r
  | (k, x), next, r => fun h => by
    simp only [valueP, bind_ok] at h
    obtain ⟨kv, h1, s, _, v, h3, h4⟩ := h
    refine ⟨?_, s, v, h4⟩
    simp only [CallsOnlyP]
    refine ⟨?_, value_none_free x v h3⟩
    by_cases hk : ∃ n, k = .var n
    · obtain ⟨n, rfl⟩ := hk; simp only [CallsOnly]
    · rw [valueK_eq (fun n e => hk ⟨n, e⟩)] at h1
      exact value_none_free k kv h1
termination_by structural p => p
end

/-! ## Go functions -/

theorem errorPos_none {outs : List OutV} (h : errorPos outs = none) : ∀ o ∈ outs, ∃ w, o = .val w := by
  induction outs with
  | nil => simp
  | cons o outs ih =>
    cases o with
    | val w =>
      simp only [errorPos, Option.map_eq_none_iff] at h
      intro o ho
      rcases List.mem_cons.1 ho with rfl | ho
      · exact ⟨w, rfl⟩
      · exact ih h o ho
    | _ => simp [errorPos] at h

/-- The first `error` among the results. -/
theorem errorPos_some {outs : List OutV} : ∀ {k : Nat}, errorPos outs = some k →
    ∃ pre e post, outs = pre ++ e :: post ∧ (∀ o ∈ pre, ∃ w, o = .val w) ∧ (∀ w, e ≠ .val w) ∧ pre.length = k ∧ outs[k]? = some e := by
  induction outs with
  | nil => simp [errorPos]
  | cons o outs ih =>
    intro k h
    cases o with
    | val w =>
      simp only [errorPos, Option.map_eq_some_iff] at h
      obtain ⟨j, hj, rfl⟩ := h
      obtain ⟨pre, e, post, h1, h2, h3, h4, h5⟩ := ih hj
      refine ⟨.val w :: pre, e, post, by rw [h1]; rfl, ?_, h3, by simp [h4], by simpa using h5⟩
      intro o ho
      rcases List.mem_cons.1 ho with rfl | ho
      · exact ⟨w, rfl⟩
      · exact h2 o ho
    | error e =>
      simp only [errorPos, Option.some.injEq] at h; subst h
      exact ⟨[], _, outs, rfl, by simp, by simp, rfl, rfl⟩
    | errorStruct =>
      simp only [errorPos, Option.some.injEq] at h; subst h
      exact ⟨[], _, outs, rfl, by simp, by simp, rfl, rfl⟩

/-- Splitting before the first `error` is unique. -/
theorem split_unique {pre pre' : List OutV} {e e' : OutV} {post post' : List OutV} (h : pre ++ e :: post = pre' ++ e' :: post')
    (h1 : ∀ o ∈ pre, ∃ w, o = .val w) (h2 : ∀ w, e ≠ .val w) (h1' : ∀ o ∈ pre', ∃ w, o = .val w) :
    (∃ w, e' = .val w) ∨ e' = e := by
  induction pre generalizing pre' with
  | nil =>
    cases pre' with
    | nil => simp only [List.nil_append, List.cons.injEq] at h; exact Or.inr h.1.symm
    | cons o pre' =>
      simp only [List.nil_append, List.cons_append, List.cons.injEq] at h
      obtain ⟨w, hw⟩ := h1' o (by simp)
      exact absurd (h.1.trans hw) (h2 w)
  | cons o pre ih =>
    cases pre' with
    | nil =>
      simp only [List.nil_append, List.cons_append, List.cons.injEq] at h
      obtain ⟨w, hw⟩ := h1 o (by simp)
      exact Or.inl ⟨w, h.1.symm.trans hw⟩
    | cons o' pre' =>
      simp only [List.cons_append, List.cons.injEq] at h
      exact ih h.2 (fun o ho => h1 o (by simp [ho])) (fun o ho => h1' o (by simp [ho]))

theorem results_cons_val {nfc w outs v} : results nfc (.val w :: outs) = .ok v ↔
    (∀ k e, errorPos outs = some k → outs[k]? = some e → e = .error none) ∧ v = nativeToCty nfc w := by
  simp only [results, errorPos]
  cases h : errorPos outs with
  | none => simp [firstOther, outToCty, eq_comm]
  | some k =>
    obtain ⟨pre, e, post, h1, h2, h3, h4, h5⟩ := errorPos_some h
    have hl : outs.length ≠ 0 := by rw [h1]; simp
    simp only [Option.map_some, List.getElem?_cons_succ, h5, List.length_cons, Nat.add_eq_right, hl, if_false]
    cases e with
    | val w => exact absurd rfl (h3 w)
    | errorStruct =>
      simp only [reduceCtorEq, false_iff]
      rintro ⟨hh, _⟩
      exact absurd (hh k _ rfl h5) (by simp)
    | error e =>
      cases e with
      | some e =>
        simp only [reduceCtorEq, false_iff]
        rintro ⟨hh, _⟩
        exact absurd (hh k _ rfl h5) (by simp)
      | none =>
        simp only [firstOther, Option.some.injEq, reduceCtorEq, if_false, outToCty, Except.ok.injEq, Nat.right_eq_add, Nat.add_eq_zero_iff, Nat.one_ne_zero, and_false]
        constructor
        · intro h'
          refine ⟨?_, h'.symm⟩
          intro k' e hk he
          cases hk
          rw [h5] at he; cases he; rfl
        · rintro ⟨_, h'⟩; exact h'.symm

/-- What becomes of the results. -/
theorem results_iff {nfc outs v} : results nfc outs = .ok v ↔ Gives nfc outs v := by
  cases outs with
  | nil =>
    simp only [results, errorPos, firstOther, Except.ok.injEq]
    exact ⟨fun h => h ▸ .none, fun h => by cases h; rfl⟩
  | cons o rest =>
    cases o with
    | val w =>
      rw [results_cons_val]
      constructor
      · rintro ⟨h, rfl⟩
        refine .first ?_
        intro pre e post he hp
        cases hk : errorPos rest with
        | none => exact Or.inl (errorPos_none hk e (by rw [he]; simp))
        | some k =>
          obtain ⟨pre', e', post', h1, h2, h3, h4, h5⟩ := errorPos_some hk
          rcases split_unique (h1.symm.trans he) h2 h3 hp with h6 | h6
          · exact Or.inl h6
          · exact Or.inr (h6.trans (h k e' hk h5))
      · intro h
        cases h with
        | first h =>
          refine ⟨?_, rfl⟩
          intro k e hk he
          obtain ⟨pre, e', post, h1, h2, h3, h4, h5⟩ := errorPos_some hk
          rw [h5, Option.some.injEq] at he; subst he
          rcases h pre _ post h1 h2 with ⟨w, hw⟩ | h6
          · exact absurd hw (h3 w)
          · exact h6
    | errorStruct => 
      simp only [results, errorPos, List.getElem?_cons_zero]
      constructor
      · intro h; cases h
      · intro h; cases h
    | error e =>
      cases e with
      | some e =>
        simp only [results, errorPos, List.getElem?_cons_zero]
        constructor
        · intro h; cases h
        · intro h; cases h
      | none =>
        cases rest with
        | nil =>
          simp only [results, errorPos, List.getElem?_cons_zero, List.length_cons, List.length_nil, if_true, Except.ok.injEq]
          exact ⟨fun h => h ▸ .error, fun h => by cases h; rfl⟩
        | cons o rest =>
          simp only [results, errorPos, List.getElem?_cons_zero, List.length_cons, firstOther, if_true, Option.some.injEq]
          rw [if_neg (by omega)]
          cases o with
          | val w =>
            simp only [outToCty, Nat.reduceAdd, Nat.one_ne_zero, if_false, Except.ok.injEq]
            exact ⟨fun h => h ▸ .second, fun h => by cases h; rfl⟩
          | errorStruct =>
            simp only [outToCty, Nat.reduceAdd, Nat.one_ne_zero, if_false]
            exact ⟨fun h => (by cases h), fun h => by cases h⟩
          | error e =>
            cases e with
            | some e =>
              simp only [outToCty, Nat.reduceAdd, Nat.one_ne_zero, if_false]
              exact ⟨fun h => (by cases h), fun h => by cases h⟩
            | none =>
              simp only [outToCty, Nat.reduceAdd, Nat.one_ne_zero, if_false, Except.ok.injEq]
              exact ⟨fun h => h ▸ .errors, fun h => by cases h; rfl⟩

theorem isNil_iff {g : GV} : g.isNil = true ↔ g = .nil := by cases g <;> simp [GV.isNil]

theorem accepts_iff {ps : List (GV → Bool)} {gs : List GV} : accepts ps gs = true ↔
    List.Forall₂ (fun p g => p g = true) ps gs ∧ ∀ g ∈ gs, g ≠ .nil := by
  induction ps generalizing gs with
  | nil => cases gs <;> simp [accepts]
  | cons p ps ih =>
    cases gs with
    | nil => simp [accepts]
    | cons g gs =>
      have : (!g.isNil) = true ↔ g ≠ .nil := by
        cases g <;> simp [GV.isNil]
      simp only [accepts, Bool.and_eq_true, ih, List.forall₂_cons, List.mem_cons, forall_eq_or_imp, this]
      constructor
      · rintro ⟨⟨h1, h2⟩, h3, h4⟩; exact ⟨⟨h2, h3⟩, h1, h4⟩
      · rintro ⟨⟨h2, h3⟩, h1, h4⟩; exact ⟨⟨h1, h2⟩, h3, h4⟩

theorem callGo_iff {nfc f gs v} : callGo nfc f gs = .ok v ↔ ∃ g outs, f = .fn g ∧
    List.Forall₂ (fun p x => p x = true) g.params gs ∧ (∀ x ∈ gs, x ≠ GV.nil) ∧ g.run gs = some outs ∧ Gives nfc outs v := by
  cases f with
  | other => simp [callGo]
  | fn g =>
    simp only [callGo]
    by_cases hl : g.params.length = gs.length
    · rw [if_neg (by simpa using hl)]
      by_cases ha : accepts g.params gs = true
      · rw [if_pos ha]
        rw [accepts_iff] at ha
        cases hr : g.run gs with
        | none =>
          simp only [reduceCtorEq, false_iff]
          rintro ⟨g', outs, he, _, _, h, _⟩
          cases he; rw [hr] at h; cases h
        | some outs =>
          simp only [results_iff]
          constructor
          · intro h; exact ⟨g, outs, rfl, ha.1, ha.2, hr, h⟩
          · rintro ⟨g', outs', he, _, _, h, h'⟩
            cases he; rw [hr] at h; cases h; exact h'
      · rw [if_neg ha]
        simp only [reduceCtorEq, false_iff]
        rintro ⟨g', outs, he, h1, h2, _⟩
        cases he; exact ha (accepts_iff.2 ⟨h1, h2⟩)
    · rw [if_pos (by simpa using hl)]
      simp only [reduceCtorEq, false_iff]
      rintro ⟨g', outs, he, h1, _⟩
      cases he; exact hl h1.length_eq

theorem toNative_ok {v g} : toNative v = .ok g ↔ ctyToNative v = .ok g := by
  unfold toNative
  cases ctyToNative v <;> simp

theorem findFn_ok {m n f} : findFn m n = .ok f ↔ n ≠ [] ∧ GoMap.get? m n = some f := by
  unfold findFn
  split
  · rename_i h; simp [h]
  · rename_i h; simp [h, ofOption_ok]

/-- The call of a Go function, given the arguments. -/
theorem native_iff {nfc m n v} {vs : List Cty} {gs : List GV} (h : List.Forall₂ (fun a g => ctyToNative a = .ok g) vs gs) :
    (∃ f, findFn m n = .ok f ∧ callGo nfc f gs = .ok v) ↔ Means nfc (.native m) n vs v := by
  simp only [findFn_ok, callGo_iff, Means, GoCalls]
  have hall : ∀ {vs : List Cty} {gs : List GV}, List.Forall₂ (fun a g => ctyToNative a = .ok g) vs gs → (∀ x ∈ gs, x ≠ GV.nil) →
      List.Forall₂ (fun a g => ctyToNative a = .ok g ∧ g ≠ .nil) vs gs := by
    intro vs gs h
    induction h with
    | nil => intro _; exact .nil
    | cons h1 _ ih => intro hn; exact .cons ⟨h1, hn _ (by simp)⟩ (ih fun x hx => hn x (by simp [hx]))
  have heq : ∀ {vs : List Cty} {gs gs' : List GV}, List.Forall₂ (fun a g => ctyToNative a = .ok g) vs gs →
      List.Forall₂ (fun a g => ctyToNative a = .ok g ∧ g ≠ .nil) vs gs' → gs' = gs ∧ ∀ x ∈ gs, x ≠ GV.nil := by
    intro vs gs gs' h
    induction h generalizing gs' with
    | nil => intro h'; cases h'; simp
    | cons h1 _ ih =>
      intro h'
      cases h' with
      | cons h2 h3 =>
        obtain ⟨e, he⟩ := ih h3
        have : _ = _ := h2.1.symm.trans h1
        simp only [Except.ok.injEq] at this
        subst this
        refine ⟨by rw [e], ?_⟩
        intro x hx
        rcases List.mem_cons.1 hx with rfl | hx
        · exact h2.2
        · exact he x hx
  constructor
  · rintro ⟨f, ⟨h1, h2⟩, g, outs, rfl, h3, h4, h5, h6⟩
    exact ⟨g, h2, h1, gs, outs, hall h h4, h3, h5, h6⟩
  · rintro ⟨g, h2, h1, gs', outs, h3, h4, h5, h6⟩
    obtain ⟨rfl, h7⟩ := heq h h3
    exact ⟨.fn g, ⟨h1, h2⟩, g, outs, rfl, h4, h7, h5, h6⟩

/-! ## The evaluation of the code -/

theorem asString_ok {v s} : asString v = .ok s ↔ v = .str s := by
  cases v <;> simp [asString]

theorem key_sound {env : Env} {F} {k : X} {kv : Cty} {s : Bytes} (h : valueK env none k = .ok kv) (hs : env.keyStr kv = some s) :
    DenK env F k s := by
  have := (key_iff (env := env) (fs := none) (value_iff k)).1 ⟨kv, h, hs⟩
  refine key_change (P := fun _ => True) (callsOnly_true k) (fun v hc h => ?_) this
  exact value_none ((value_iff k v).2 h)

section
variable {env : Env} {ref : Funcs} (hk : ∀ s, env.keyStr (.str s) = some s)
include hk

/-- Names other than `null`. -/
abbrev NotNull (n : Bytes) : Prop := n ≠ b "null"

set_option linter.unusedSectionVars false in
mutual
theorem expr_sound : ∀ (x : X) (v : Cty), CallsOnly NotNull x → exprToCty env ref x = .ok v → Den env (Means env.nfc ref) x v
  | .lit w, v => fun _ h => by simp only [exprToCty] at h; exact value_none h
  | .var n, v => fun _ h => by simp only [exprToCty] at h; exact value_none h
  | .op o args, v => fun _ h => by simp only [exprToCty] at h; exact value_none h
  | .tuple l, v => fun hc h => by
    simp only [CallsOnly] at hc
    simp only [exprToCty, map_ok] at h
    obtain ⟨vs, h, rfl⟩ := h
    exact .tuple (exprL_sound l vs hc h)
  | .object m, v => fun hc h => by
    simp only [CallsOnly] at hc
    simp only [exprToCty, map_ok] at h
    obtain ⟨r, h, rfl⟩ := h
    obtain ⟨es, h1, rfl⟩ := exprO_sound m [] r hc h
    exact .object h1 (isObj_storeAll es)
  | .call n args, v => fun hc h => by
    simp only [CallsOnly] at hc
    have ha := exprA_sound args
    cases ref with
    | absent => simp [exprToCty, value] at h
    | other => simp only [exprToCty, if_neg hc.1] at h; cases h
    | hcl m => simp only [exprToCty, if_neg hc.1] at h; exact (value_iff _ _).1 h
    | native m =>
      simp only [exprToCty, if_neg hc.1, bind_ok] at h
      obtain ⟨f, h1, gs, h2, h3⟩ := h
      obtain ⟨vs, h4, h5⟩ := ha gs hc.2 h2
      exact .call h4 ((native_iff h5).1 ⟨f, h1, h3⟩)
termination_by structural x => x
theorem exprL_sound : ∀ (l : List X) (vs : List Cty), CallsOnlyL NotNull l → exprL env ref l = .ok vs → DenL env (Means env.nfc ref) l vs
  | [], vs => fun _ h => by simp only [exprL, Except.ok.injEq] at h; subst h; exact .nil
  | x :: l, vs => fun hc h => by
    simp only [CallsOnlyL] at hc
    simp only [exprL, bind_ok, map_ok] at h
    obtain ⟨v, h1, ws, h2, rfl⟩ := h
    exact .cons (expr_sound x v hc.1 h1) (exprL_sound l ws hc.2 h2)
termination_by structural l => l
theorem exprO_sound : ∀ (m : List (X × X)) (acc r : List (Bytes × Cty)), CallsOnlyO NotNull m → exprO env ref m acc = .ok r →
    ∃ es, DenO env (Means env.nfc ref) m es ∧ r = storeAll es acc
  | [], acc, r => fun _ h => by simp only [exprO, Except.ok.injEq] at h; subst h; exact ⟨[], .nil, rfl⟩
  | e :: m, acc, r => fun hc h => by
    simp only [CallsOnlyO] at hc
    simp only [exprO] at h
    obtain ⟨s, v, h1, h2, h3⟩ := exprP_sound e _ r hc.1 h
    obtain ⟨es, h4, rfl⟩ := exprO_sound m _ r hc.2 h3
    exact ⟨(s, v) :: es, .cons h1 h2 h4, rfl⟩
termination_by structural m => m
theorem exprP_sound : ∀ (p : X × X) (next : Bytes → Cty → Except Fail (List (Bytes × Cty))) (r : List (Bytes × Cty)),
    CallsOnlyP NotNull p → exprP env ref p next = .ok r →
    ∃ s v, DenK env (Means env.nfc ref) p.1 s ∧ Den env (Means env.nfc ref) p.2 v ∧ next s v = .ok r
  | (k, x), next, r => fun hc h => by
    simp only [CallsOnlyP] at hc
    simp only [exprP, bind_ok, asString_ok] at h
    obtain ⟨kv, h1, v, h2, s, rfl, h4⟩ := h
    exact ⟨s, v, key_sound h1 (hk s), expr_sound x v hc.2 h2, h4⟩
termination_by structural p => p
theorem exprA_sound : ∀ (l : List X) (gs : List GV), CallsOnlyL NotNull l → exprA env ref l = .ok gs →
    ∃ vs, DenL env (Means env.nfc ref) l vs ∧ List.Forall₂ (fun a g => ctyToNative a = .ok g) vs gs
  | [], gs => fun _ h => by simp only [exprA, Except.ok.injEq] at h; subst h; exact ⟨[], .nil, .nil⟩
  | x :: l, gs => fun hc h => by
    simp only [CallsOnlyL] at hc
    simp only [exprA, bind_ok, map_ok, toNative_ok] at h
    obtain ⟨v, h1, g, h2, gs', h3, rfl⟩ := h
    obtain ⟨vs, h4, h5⟩ := exprA_sound l gs' hc.2 h3
    exact ⟨v :: vs, .cons (expr_sound x v hc.1 h1) h4, .cons h2 h5⟩
termination_by structural l => l
end

/-- Whether the functions are Go functions. -/
def Funcs.isNative : Funcs → Bool
  | .native _ => true
  | _ => false

theorem plainKey_value {F} {k : X} {s : Bytes} (hp : PlainKey k) (h : DenK env F k s) : valueK env none k = .ok (.str s) := by
  cases hp with
  | name =>
    cases h with
    | name h => rw [hk, Option.some.injEq] at h; subst h; rfl
    | expr h => exact absurd rfl (h _)
  | str =>
    cases h with
    | expr _ h1 h2 =>
      cases h1
      rw [hk, Option.some.injEq] at h2; subst h2; rfl

omit hk in
theorem means_args {m n vs v} (h : Means env.nfc (.native m) n vs v) :
    ∃ gs, List.Forall₂ (fun a g => ctyToNative a = .ok g) vs gs := by
  obtain ⟨f, _, _, gs, _, h, _⟩ := h
  exact ⟨gs, h.imp fun _ _ h => h.1⟩

set_option linter.unusedSectionVars false in
mutual
theorem expr_complete : ∀ (x : X) (v : Cty), Top ref.isNative x → Den env (Means env.nfc ref) x v → exprToCty env ref x = .ok v
  | .lit w, v => fun _ h => by cases h; rfl
  | .var n, v => fun _ h => by
    cases h with
    | var h => simp only [exprToCty, value, ofOption_ok]; exact h
  | .op o args, v => fun ht h => by
    simp only [Top] at ht
    simp only [exprToCty]
    exact value_free (by simp only [CallsOnly]; exact ht) h
  | .tuple l, v => fun ht h => by
    simp only [Top] at ht
    cases h with
    | tuple h => simp only [exprToCty, map_ok]; exact ⟨_, exprL_complete l _ ht h, rfl⟩
  | .object m, v => fun ht h => by
    simp only [Top] at ht
    cases h with
    | object h1 h2 => simp only [exprToCty, map_ok]; exact ⟨_, (exprO_complete m [] _ ht h1), by rw [h2.eq]⟩
  | .call n args, v => fun ht h => by
    have ha := exprA_complete args
    simp only [Top] at ht
    cases ref with
    | absent => cases h with | call _ h => exact h.elim
    | other => cases h with | call _ h => exact h.elim
    | hcl m => simp only [exprToCty, if_neg ht.1]; exact (value_iff _ _).2 h
    | native m =>
      cases h with
      | call h1 h2 =>
        obtain ⟨gs, hgs⟩ := means_args h2
        obtain ⟨f, h3, h4⟩ := (native_iff hgs).2 h2
        simp only [exprToCty, if_neg ht.1, bind_ok]
        exact ⟨f, h3, gs, ha _ gs (ht.2 rfl) h1 hgs, h4⟩
termination_by structural x => x
theorem exprL_complete : ∀ (l : List X) (vs : List Cty), TopL ref.isNative l → DenL env (Means env.nfc ref) l vs → exprL env ref l = .ok vs
  | [], vs => fun _ h => by cases h; rfl
  | x :: l, vs => fun ht h => by
    simp only [TopL] at ht
    cases h with
    | cons h1 h2 =>
      simp only [exprL, bind_ok, map_ok]
      exact ⟨_, expr_complete x _ ht.1 h1, _, exprL_complete l _ ht.2 h2, rfl⟩
termination_by structural l => l
theorem exprO_complete : ∀ (m : List (X × X)) (acc es : List (Bytes × Cty)), TopO ref.isNative m → DenO env (Means env.nfc ref) m es →
    exprO env ref m acc = .ok (storeAll es acc)
  | [], acc, es => fun _ h => by cases h; rfl
  | e :: m, acc, es => fun ht h => by
    simp only [TopO] at ht
    obtain ⟨k, x⟩ := e
    cases h with
    | cons h1 h2 h3 =>
      simp only [exprO]
      rw [exprP_complete (k, x) _ _ _ ht.1 h1 h2]
      exact exprO_complete m _ _ ht.2 h3
termination_by structural m => m
theorem exprP_complete : ∀ (p : X × X) (next : Bytes → Cty → Except Fail (List (Bytes × Cty))) (s : Bytes) (v : Cty),
    TopP ref.isNative p → DenK env (Means env.nfc ref) p.1 s → Den env (Means env.nfc ref) p.2 v →
    exprP env ref p next = next s v
  | (k, x), next, s, v => fun ht h1 h2 => by
    simp only [TopP] at ht
    simp only [exprP, plainKey_value hk ht.1 h1, expr_complete x v ht.2 h2, Except.bind, asString]
termination_by structural p => p
theorem exprA_complete : ∀ (l : List X) (vs : List Cty) (gs : List GV), TopL ref.isNative l → DenL env (Means env.nfc ref) l vs →
    List.Forall₂ (fun a g => ctyToNative a = .ok g) vs gs → exprA env ref l = .ok gs
  | [], vs, gs => fun _ h hg => by cases h; cases hg; rfl
  | x :: l, vs, gs => fun ht h hg => by
    simp only [TopL] at ht
    cases h with
    | cons h1 h2 =>
      cases hg with
      | cons h3 h4 =>
        simp only [exprA, bind_ok, map_ok, toNative_ok]
        exact ⟨_, expr_complete x _ ht.1 h1, _, h3, _, exprA_complete l _ _ ht.2 h2 h4, rfl⟩
termination_by structural l => l
end
end

/-! ## Default functions -/

theorem get?_setAll (k : Bytes) : ∀ (core t : GoMap Bytes HclFn), (GoMap.keys core).Nodup →
    GoMap.get? (core.foldl (fun t e => GoMap.set t e.1 e.2) t) k = (GoMap.get? core k).or (GoMap.get? t k)
  | [], t, _ => by simp [GoMap.get?]
  | (k', f) :: core, t, hn => by
    simp only [GoMap.keys, List.map_cons, List.nodup_cons] at hn
    rw [List.foldl_cons, get?_setAll k core _ hn.2, GoMap.get?_set, GoMap.get?]
    by_cases h : k' = k
    · subst h
      have : GoMap.get? core k' = none := GoMap.get?_eq_none.2 hn.1
      simp [this]
    · simp [h, Ne.symm h]

theorem get?_perm {m m' : GoMap Bytes HclFn} (hp : m.Perm m') (hn : (GoMap.keys m').Nodup) (k : Bytes) :
    GoMap.get? m k = GoMap.get? m' k := by
  have hn' : (GoMap.keys m).Nodup := (hp.map Prod.fst).nodup_iff.2 hn
  cases h : GoMap.get? m' k with
  | none =>
    rw [GoMap.get?_eq_none] at h ⊢
    exact fun hm => h ((hp.map Prod.fst).mem_iff.1 hm)
  | some f => exact GoMap.mem_get? hn' (hp.mem_iff.2 (GoMap.get?_mem h))

/-! ## Expressions of values -/

theorem valueL_lits {env : Env} {fs} : ∀ l : List Cty, valueL env fs (l.map .lit) = .ok l
  | [] => by simp only [List.map_nil, valueL]
  | v :: l => by simp only [List.map_cons, valueL, value, valueL_lits l, Except.bind, Except.map]

theorem valueO_lits {env : Env} {fs} (hk : ∀ s, env.keyStr (.str s) = some s) : ∀ (m acc : List (Bytes × Cty)),
    valueO env fs (m.map fun e => (.lit (.str e.1), .lit e.2)) acc = .ok (storeAll m acc)
  | [], acc => by simp only [List.map_nil, valueO]; rfl
  | e :: m, acc => by
    simp only [List.map_cons, valueO, valueP, valueK, value, Except.bind, hk, ofOption, valueO_lits hk m]
    rfl

/-! ## Panics -/

theorem bind_noPanic {α β : Type} {x : Except Fail α} {f : α → Except Fail β} (hx : x ≠ .error .panic)
    (hf : ∀ a, x = .ok a → f a ≠ .error .panic) : x.bind f ≠ .error .panic := by
  cases x with
  | error e => simpa [Except.bind] using hx
  | ok a => exact hf a rfl

theorem map_noPanic {α β : Type} {x : Except Fail α} {f : α → β} (hx : x ≠ .error .panic) : x.map f ≠ .error .panic := by
  cases x with
  | error e => simpa [Except.map] using hx
  | ok a => simp [Except.map]

theorem ofOption_noPanic {α : Type} {o : Option α} : ofOption o ≠ .error .panic := by
  cases o <;> simp [ofOption]

theorem callHcl_noPanic {fs n vs} : callHcl fs n vs ≠ .error .panic := by
  unfold callHcl
  split
  · simp
  · split
    · simp
    · exact ofOption_noPanic

mutual
theorem value_noPanic {env : Env} {fs} : ∀ x : X, value env fs x ≠ .error .panic
  | .lit _ => by simp [value]
  | .var n => by simp only [value]; exact ofOption_noPanic
  | .tuple l => by simp only [value]; exact map_noPanic (valueL_noPanic l)
  | .object m => by simp only [value]; exact map_noPanic (valueO_noPanic m [])
  | .call n args => by
    have := valueL_noPanic (env := env) (fs := fs) args
    cases fs with
    | none => simp [value]
    | some t => simp only [value]; exact bind_noPanic this fun _ _ => callHcl_noPanic
  | .op o args => by simp only [value]; exact bind_noPanic (valueL_noPanic args) fun _ _ => ofOption_noPanic
termination_by structural x => x
theorem valueL_noPanic {env : Env} {fs} : ∀ l : List X, valueL env fs l ≠ .error .panic
  | [] => by simp [valueL]
  | x :: l => by simp only [valueL]; exact bind_noPanic (value_noPanic x) fun _ _ => map_noPanic (valueL_noPanic l)
termination_by structural l => l
theorem valueO_noPanic {env : Env} {fs} : ∀ (m : List (X × X)) (acc : List (Bytes × Cty)), valueO env fs m acc ≠ .error .panic
  | [], acc => by simp [valueO]
  | e :: m, acc => by simp only [valueO]; exact valueP_noPanic e _ fun _ _ => valueO_noPanic m _
termination_by structural m => m
theorem valueP_noPanic {env : Env} {fs} : ∀ (p : X × X) (next : Bytes → Cty → Except Fail (List (Bytes × Cty))),
    (∀ s v, next s v ≠ .error .panic) → valueP env fs p next ≠ .error .panic
  | (k, x), next => fun hn => by
    simp only [valueP]
    refine bind_noPanic ?_ fun _ _ => bind_noPanic ofOption_noPanic fun _ _ => bind_noPanic (value_noPanic x) fun _ _ => hn _ _
    by_cases hk : ∃ n, k = .var n
    · obtain ⟨n, rfl⟩ := hk; simp [valueK]
    · rw [valueK_eq (fun n e => hk ⟨n, e⟩)]; exact value_noPanic k
termination_by structural p => p
end

theorem plainKey_str {env : Env} {k : X} (h : PlainKey k) : ∃ s, valueK env none k = .ok (.str s) := by
  cases h <;> exact ⟨_, rfl⟩

mutual
theorem expr_noPanic {env : Env} {ref : Funcs} (hr : ∀ m, ref ≠ .native m) : ∀ x : X, Top false x → exprToCty env ref x ≠ .error .panic
  | .lit _ => fun _ => by simp only [exprToCty]; exact value_noPanic _
  | .var n => fun _ => by simp only [exprToCty]; exact value_noPanic _
  | .op o args => fun _ => by simp only [exprToCty]; exact value_noPanic _
  | .tuple l => fun h => by
    simp only [Top] at h
    simp only [exprToCty]; exact map_noPanic (exprL_noPanic hr l h)
  | .object o => fun h => by
    simp only [Top] at h
    simp only [exprToCty]; exact map_noPanic (exprO_noPanic hr o [] h)
  | .call n args => fun _ => by
    cases ref with
    | absent => simp only [exprToCty]; exact value_noPanic _
    | hcl m =>
      simp only [exprToCty]
      split
      · simp
      · exact value_noPanic _
    | native m => exact absurd rfl (hr m)
    | other => simp only [exprToCty]; split <;> simp
termination_by structural x => x
theorem exprL_noPanic {env : Env} {ref : Funcs} (hr : ∀ m, ref ≠ .native m) : ∀ l : List X, TopL false l → exprL env ref l ≠ .error .panic
  | [] => fun _ => by simp [exprL]
  | x :: l => fun h => by
    simp only [TopL] at h
    simp only [exprL]; exact bind_noPanic (expr_noPanic hr x h.1) fun _ _ => map_noPanic (exprL_noPanic hr l h.2)
termination_by structural l => l
theorem exprO_noPanic {env : Env} {ref : Funcs} (hr : ∀ m, ref ≠ .native m) : ∀ (o : List (X × X)) (acc : List (Bytes × Cty)), TopO false o →
    exprO env ref o acc ≠ .error .panic
  | [], acc => fun _ => by simp [exprO]
  | e :: o, acc => fun h => by
    simp only [TopO] at h
    simp only [exprO]; exact exprP_noPanic hr e _ h.1 fun _ _ => exprO_noPanic hr o _ h.2
termination_by structural o => o
theorem exprP_noPanic {env : Env} {ref : Funcs} (hr : ∀ m, ref ≠ .native m) : ∀ (p : X × X) (next : Bytes → Cty → Except Fail (List (Bytes × Cty))),
    TopP false p → (∀ s v, next s v ≠ .error .panic) → exprP env ref p next ≠ .error .panic
  | (k, x), next => fun h hn => by
    simp only [TopP] at h
    obtain ⟨s, hs⟩ := plainKey_str (env := env) h.1
    simp only [exprP, hs, Except.bind, asString]
    exact bind_noPanic (expr_noPanic hr x h.2) fun _ _ => hn _ _
termination_by structural p => p
end

theorem toNative_noPanic {v : Cty} : toNative v ≠ .error .panic := by
  unfold toNative; split <;> simp

theorem bind_panic {α β : Type} {x : Except Fail α} {f : α → Except Fail β} (h : x.bind f = .error .panic) :
    x = .error .panic ∨ ∃ a, x = .ok a ∧ f a = .error .panic := by
  cases x with
  | error e => exact Or.inl (by simpa [Except.bind] using h)
  | ok a => exact Or.inr ⟨a, rfl, h⟩

theorem map_panic {α β : Type} {x : Except Fail α} {f : α → β} (h : x.map f = .error .panic) : x = .error .panic := by
  cases x with
  | error e => simpa [Except.map] using h
  | ok a => cases h

theorem exprA_ok {env : Env} {ref : Funcs} : ∀ {l : List X} {gs : List GV}, exprA env ref l = .ok gs →
    List.Forall₂ (fun x g => ∃ v, exprToCty env ref x = .ok v ∧ ctyToNative v = .ok g) l gs
  | [], gs, h => by simp only [exprA] at h; cases h; exact .nil
  | x :: l, gs, h => by
    simp only [exprA, bind_ok, map_ok, toNative_ok] at h
    obtain ⟨v, hv, g, hg, gs', h1, rfl⟩ := h
    exact .cons ⟨v, hv, hg⟩ (exprA_ok h1)

mutual
theorem expr_panic {env : Env} {m : GoMap Bytes NativeFn} : ∀ x : X, Top true x → exprToCty env (.native m) x = .error .panic → PanicIn env m x
  | .lit _ => fun _ hp => by simp only [exprToCty] at hp; exact absurd hp (value_noPanic _)
  | .var n => fun _ hp => by simp only [exprToCty] at hp; exact absurd hp (value_noPanic _)
  | .op o args => fun _ hp => by simp only [exprToCty] at hp; exact absurd hp (value_noPanic _)
  | .tuple l => fun h hp => by
    simp only [Top] at h
    simp only [exprToCty] at hp
    obtain ⟨x, hx, hp⟩ := exprL_panic l h (map_panic hp)
    exact .tuple hx hp
  | .object o => fun h hp => by
    simp only [Top] at h
    simp only [exprToCty] at hp
    obtain ⟨e, he, hp⟩ := exprO_panic o [] h (map_panic hp)
    exact .object he hp
  | .call n args => fun h hp => by
    simp only [Top] at h
    simp only [exprToCty, if_neg h.1] at hp
    rcases bind_panic hp with hp | ⟨f, hf, hp⟩
    · unfold findFn at hp
      split at hp
      · cases hp
      · exact absurd hp ofOption_noPanic
    · rcases bind_panic hp with hp | ⟨gs, hg, hp⟩
      · obtain ⟨x, hx, hp⟩ := exprA_panic args (h.2 trivial) hp
        exact .arg hx hp
      · unfold findFn at hf
        split at hf
        · cases hf
        · cases hm : GoMap.get? m n with
          | none => rw [hm] at hf; cases hf
          | some f' => rw [hm] at hf; cases hf; exact .here hm (exprA_ok hg) hp
termination_by structural x => x
theorem exprL_panic {env : Env} {m : GoMap Bytes NativeFn} : ∀ l : List X, TopL true l → exprL env (.native m) l = .error .panic →
    ∃ x ∈ l, PanicIn env m x
  | [] => fun _ hp => by simp only [exprL] at hp; cases hp
  | x :: l => fun h hp => by
    simp only [TopL] at h
    simp only [exprL] at hp
    rcases bind_panic hp with hp | ⟨_, _, hp⟩
    · exact ⟨x, List.mem_cons_self, expr_panic x h.1 hp⟩
    · obtain ⟨y, hy, hp⟩ := exprL_panic l h.2 (map_panic hp)
      exact ⟨y, List.mem_cons_of_mem _ hy, hp⟩
termination_by structural l => l
theorem exprO_panic {env : Env} {m : GoMap Bytes NativeFn} : ∀ (o : List (X × X)) (acc : List (Bytes × Cty)), TopO true o →
    exprO env (.native m) o acc = .error .panic → ∃ e ∈ o, PanicIn env m e.2
  | [], acc => fun _ hp => by simp only [exprO] at hp; cases hp
  | e :: o, acc => fun h hp => by
    simp only [TopO] at h
    simp only [exprO] at hp
    rcases exprP_panic e _ h.1 hp with hp | ⟨s, v, hp⟩
    · exact ⟨e, List.mem_cons_self, hp⟩
    · obtain ⟨y, hy, hp⟩ := exprO_panic o _ h.2 hp
      exact ⟨y, List.mem_cons_of_mem _ hy, hp⟩
termination_by structural o => o
theorem exprP_panic {env : Env} {m : GoMap Bytes NativeFn} : ∀ (p : X × X) (next : Bytes → Cty → Except Fail (List (Bytes × Cty))),
    TopP true p → exprP env (.native m) p next = .error .panic → PanicIn env m p.2 ∨ ∃ s v, next s v = .error .panic
  | (k, x), next => fun h hp => by
    simp only [TopP] at h
    obtain ⟨s, hs⟩ := plainKey_str (env := env) h.1
    simp only [exprP, hs, Except.bind, asString] at hp
    rcases bind_panic (f := fun v => next s v) hp with hp | ⟨v, _, hp⟩
    · exact Or.inl (expr_panic x h.2 hp)
    · exact Or.inr ⟨s, v, hp⟩
termination_by structural p => p
theorem exprA_panic {env : Env} {m : GoMap Bytes NativeFn} : ∀ l : List X, TopL true l → exprA env (.native m) l = .error .panic →
    ∃ x ∈ l, PanicIn env m x
  | [] => fun _ hp => by simp only [exprA] at hp; cases hp
  | x :: l => fun h hp => by
    simp only [TopL] at h
    simp only [exprA] at hp
    rcases bind_panic hp with hp | ⟨_, _, hp⟩
    · exact ⟨x, List.mem_cons_self, expr_panic x h.1 hp⟩
    · rcases bind_panic hp with hp | ⟨_, _, hp⟩
      · exact absurd hp toNative_noPanic
      · obtain ⟨y, hy, hp⟩ := exprA_panic l h.2 (map_panic hp)
        exact ⟨y, List.mem_cons_of_mem _ hy, hp⟩
termination_by structural l => l
end

/-- When the results make the code panic: exactly when the first error among them is of a type without nil. -/
theorem results_panic {nfc outs} : results nfc outs = .error .panic ↔
    ∃ pre post, outs = pre ++ .errorStruct :: post ∧ ∀ o ∈ pre, ∃ w, o = .val w := by
  have hf : ∀ k i l, firstOther nfc k i l ≠ .error .panic := by
    intro k i l
    induction l generalizing i with
    | nil => simp [firstOther]
    | cons o l ih =>
      simp only [firstOther]
      split
      · exact ih _
      · cases o with
        | error e => cases e <;> simp [outToCty]
        | _ => simp [outToCty]
  unfold results
  cases hk : errorPos outs with
  | none =>
    refine ⟨fun h => absurd h (hf _ _ _), ?_⟩
    rintro ⟨pre, post, rfl, _⟩
    obtain ⟨w, hw⟩ := errorPos_none hk .errorStruct (by simp)
    cases hw
  | some k =>
    obtain ⟨pre, e, post, h1, h2, h3, h4, h5⟩ := errorPos_some hk
    simp only [h5]
    constructor
    · intro h
      cases e with
      | val w => exact absurd rfl (h3 w)
      | errorStruct => exact ⟨pre, post, h1, h2⟩
      | error e =>
        cases e with
        | some e => simp at h
        | none =>
          simp only at h
          split at h
          · cases h
          · exact absurd h (hf _ _ _)
    · rintro ⟨pre', post', h6, h7⟩
      rcases split_unique (h1.symm.trans h6) h2 h3 h7 with ⟨w, hw⟩ | h8
      · cases hw
      · rw [← h8]
end Verif.Fn

import Verif.Model.Template
import Verif.Lemmas.Call
/-!
# Lemmas about templates
-/
namespace Verif.Template
open Verif.Fn Verif.Hcl Verif.Funcs Verif.File

variable {env : Env} {F : Bytes → List Cty → Cty → Prop}

theorem varsK_eq {k : X} (h : ∀ n, k ≠ .var n) : exprVarsK k = exprVars k := by
  cases k with
  | var n => exact absurd rfl (h n)
  | _ => simp [exprVarsK, exprVars]

theorem denO_inv {p : X × X} {m : List (X × X)} {es : List (Bytes × Cty)} (h : DenO env F (p :: m) es) :
    ∃ s v es', DenK env F p.1 s ∧ Den env F p.2 v ∧ DenO env F m es' := by
  cases h with
  | cons hk hx hm => exact ⟨_, _, _, hk, hx, hm⟩

mutual
/-- What has a value mentions only variables that exist. -/
theorem den_vars : ∀ (x : X) (v : Cty), Den env F x v → ∀ n ∈ exprVars x, (GoMap.get? env.vars n).isSome = true
  | .lit _, _, _ => by simp [exprVars]
  | .var m, v, h => by
    cases h with
    | var hv => intro n hn; simp only [exprVars, List.mem_singleton] at hn; rw [hn, hv]; rfl
  | .tuple l, v, h => by
    cases h with
    | tuple hl => simpa only [exprVars] using denL_vars l _ hl
  | .object m, v, h => by
    cases h with
    | object hm _ => simpa only [exprVars] using denO_vars m _ hm
  | .call _ args, v, h => by
    cases h with
    | call hl _ => simpa only [exprVars] using denL_vars args _ hl
  | .op _ args, v, h => by
    cases h with
    | op hl _ => simpa only [exprVars] using denL_vars args _ hl
termination_by structural x => x
theorem denL_vars : ∀ (l : List X) (vs : List Cty), DenL env F l vs → ∀ n ∈ exprVarsL l, (GoMap.get? env.vars n).isSome = true
  | [], _, _ => by simp [exprVarsL]
  | x :: l, vs, h => by
    cases h with
    | cons hx hl =>
      intro n hn
      simp only [exprVarsL, List.mem_append] at hn
      rcases hn with hn | hn
      · exact den_vars x _ hx n hn
      · exact denL_vars l _ hl n hn
termination_by structural l => l
theorem denO_vars : ∀ (m : List (X × X)) (es : List (Bytes × Cty)), DenO env F m es → ∀ n ∈ exprVarsO m, (GoMap.get? env.vars n).isSome = true
  | [], _, _ => by simp [exprVarsO]
  | p :: m, es, h => by
    intro n hn
    simp only [exprVarsO, List.mem_append] at hn
    obtain ⟨s, v, es', hk, hx, hm⟩ := denO_inv h
    rcases hn with hn | hn
    · exact denP_vars p s v hk hx n hn
    · exact denO_vars m es' hm n hn
termination_by structural m => m
theorem denP_vars : ∀ (p : X × X) (s : Bytes) (v : Cty), DenK env F p.1 s → Den env F p.2 v → ∀ n ∈ exprVarsP p, (GoMap.get? env.vars n).isSome = true
  | (k, x), s, v, hk, hx => by
    intro n hn
    simp only [exprVarsP, List.mem_append] at hn
    rcases hn with hn | hn
    · cases hk with
      | name _ => simp [exprVarsK] at hn
      | expr hne hv _ =>
        rw [varsK_eq hne] at hn
        exact den_vars k _ hv n hn
    · exact den_vars x _ hx n hn
termination_by structural p => p
end

theorem get?_stubbed (n : Bytes) : ∀ m : GoMap Bytes HclFn,
    GoMap.get? (stubbed m) n = (GoMap.get? m n).map fun f => if isSelf n then fun _ => none else f
  | [] => rfl
  | (k, f) :: m => by
    have ih := get?_stubbed n m
    by_cases h : k = n
    · subst h; simp [stubbed, GoMap.get?]
    · simpa [stubbed, GoMap.get?, h] using ih

variable {P : Bytes → Prop} (hP : ∀ n vs w, F n vs w → P n)
include hP

mutual
/-- What has a value calls only functions that can give one. -/
theorem den_calls : ∀ (x : X) (v : Cty), Den env F x v → CallsOnly P x
  | .lit _, _, _ => by simp [CallsOnly]
  | .var m, v, h => by simp [CallsOnly]
  | .tuple l, v, h => by
    cases h with
    | tuple hl => simpa only [CallsOnly] using denL_calls l _ hl
  | .object m, v, h => by
    cases h with
    | object hm _ => simpa only [CallsOnly] using denO_calls m _ hm
  | .call _ args, v, h => by
    cases h with
    | call hl hf => simp only [CallsOnly]; exact ⟨hP _ _ _ hf, denL_calls args _ hl⟩
  | .op _ args, v, h => by
    cases h with
    | op hl _ => simpa only [CallsOnly] using denL_calls args _ hl
termination_by structural x => x
theorem denL_calls : ∀ (l : List X) (vs : List Cty), DenL env F l vs → CallsOnlyL P l
  | [], _, _ => by simp [CallsOnlyL]
  | x :: l, vs, h => by
    cases h with
    | cons hx hl => simp only [CallsOnlyL]; exact ⟨den_calls x _ hx, denL_calls l _ hl⟩
termination_by structural l => l
theorem denO_calls : ∀ (m : List (X × X)) (es : List (Bytes × Cty)), DenO env F m es → CallsOnlyO P m
  | [], _, _ => by simp [CallsOnlyO]
  | p :: m, es, h => by
    simp only [CallsOnlyO]
    obtain ⟨s, v, es', hk, hx, hm⟩ := denO_inv h
    exact ⟨denP_calls p s v hk hx, denO_calls m es' hm⟩
termination_by structural m => m
theorem denP_calls : ∀ (p : X × X) (s : Bytes) (v : Cty), DenK env F p.1 s → Den env F p.2 v → CallsOnlyP P p
  | (k, x), s, v, hk, hx => by
    simp only [CallsOnlyP]
    refine ⟨?_, den_calls x _ hx⟩
    cases hk with
    | name _ => simp [CallsOnly]
    | expr hne hv _ => exact den_calls k _ hv
termination_by structural p => p
end

end Verif.Template

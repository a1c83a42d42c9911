import Verif.Lemmas.Scalars
/-!
# Property C153: null, unknown and marked arguments of the functions on strings, numbers, files, times and addresses

`Run` is what the functions do with values without marks; `Run.Ok` says that their results have the types they announce.
-/
namespace Verif.Typed
open Funcs (Mark sensitiveMark)

namespace Demo

/-- A few functions: `replace` and `base64decode` give a text, `parseint` fails for an empty text, `startswith` knows that all texts start with the empty
one. -/
def run : Run
  | .replace, [.str s, .str _, .str t] => some (.str (s ++ t))
  | .base64decode, [.str s] => some (.str s)
  | .parseint, [.str [], .num _] => none
  | .parseint, [.str _, .num _] => some (int 7)
  | .startswith, [.unk _, .str []] => some (.bool true)
  | .startswith, [.unk _, .str _] => some (.unk .bool)
  | .startswith, [.str s, .str t] => some (.bool (t.isPrefixOf s))
  | _, _ => none

theorem run_ok : run.Ok := by
  intro f l v h
  unfold run at h
  split at h <;> first | (cases h; done) | (cases h; exact ⟨rfl, rfl⟩)

end Demo

/-- C153: a call answers only if the number of arguments is right and each is a value of the type that the function takes, not null; or if one of them is
unknown, also in its type. -/
theorem C153_refuses (run : Run) (f : SFn) {args : List MV} {r : MV} (h : mcall (f.spec run) args = .ok r) :
    Suits f args ∨ ((∃ v ∈ args, v.strip = .unk .dyn) ∧ r.strip = .unk .dyn) := by
  rcases not_suits run f args with hn | ⟨hd, hv⟩ | hs
  · unfold mcall at h; rw [hn] at h; cases h
  · unfold mcall at h; rw [hd] at h; cases h; exact .inr ⟨hv, rfl⟩
  · exact .inl hs

/-- `replace` of null is refused; so are a number, and two arguments. -/
example : mcall (SFn.replace.spec Demo.run) [.leaf [] (.null .str), .leaf [] (.str (b "a")), .leaf [] (.str (b "c"))] = .err ∧
    mcall (SFn.replace.spec Demo.run) [.leaf [] (int 3), .leaf [] (.str (b "a")), .leaf [] (.str (b "c"))] = .err ∧
    mcall (SFn.replace.spec Demo.run) [.leaf [] (.str (b "a")), .leaf [] (.str (b "c"))] = .err := ⟨rfl, rfl, rfl⟩

/-- Its hypothesis is met. -/
example : mcall (SFn.replace.spec Demo.run) [.leaf [] (.str (b "x")), .leaf [] (.str (b "a")), .leaf [] (.str (b "c"))] = .ok (.leaf [] (.str (b "xc"))) := rfl

/-- C153: arguments that suit, one of them unknown (for `startswith`: the prefix): the result is unknown, of the type of the results.  For functions that do
not deal with marks on their own, it has the marks of the arguments. -/
theorem C153_unknown {run : Run} (hr : run.Ok) {f : SFn} {args : List MV} (h : Suits f args) {i : Nat} {v : MV} (hv : args[i]? = some v)
    (hk : v.strip.known = false) (hs : f = .startswith → i ≠ 0) :
    ∃ r, mcall (f.spec run) args = .ok r ∧ r.strip = .unk f.result ∧ (f.own = false → ∀ a, Carries a r ↔ ∃ w ∈ args, Carries a w) := by
  refine ⟨.leaf (resultMarks (f.spec run) args) (.unk f.result), ?_, rfl, fun ho a => ?_⟩
  · rw [call_suits hr h, if_pos ((blocked_suits run h).2 ⟨i, v, hv, hk, fun ⟨hf, hi⟩ => hs hf hi⟩)]
  · rw [resultMarks, spec_own, ho]
    simp only [Bool.false_eq_true, if_false]
    constructor
    · intro hc
      obtain ⟨w, hw, hd⟩ := List.mem_flatMap.1 (carries_leaf hc)
      exact ⟨w, hw, (deep_iff a w).1 hd⟩
    · rintro ⟨w, hw, hc⟩
      exact .here (List.mem_flatMap.2 ⟨w, hw, (deep_iff a w).2 hc⟩)

/-- `replace` in a text that is unknown and sensitive. -/
example : mcall (SFn.replace.spec Demo.run) [.leaf [sensitiveMark] (.unk .str), .leaf [] (.str (b "a")), .leaf [b "x"] (.str (b "c"))] =
    .ok (.leaf [sensitiveMark, b "x"] (.unk .str)) := rfl

/-- C153: arguments that suit, none of them unknown (for `startswith`: the prefix): the call ends as `Impl` does with the values without marks.  The marks of the
result are those of the arguments, for all the functions. -/
theorem C153_known {run : Run} (hr : run.Ok) {f : SFn} {args : List MV} (h : Suits f args)
    (hk : ∀ (i : Nat) (v : MV), args[i]? = some v → v.strip.known = true ∨ (f = .startswith ∧ i = 0)) :
    match run f (args.map MV.strip) with
    | none => mcall (f.spec run) args = .err
    | some v => ∃ r, mcall (f.spec run) args = .ok r ∧ r.strip = v ∧ ∀ a, Carries a r ↔ ∃ w ∈ args, Carries a w := by
  have hb : ¬ blocked (f.spec run).params (f.spec run).var (strips args) = true := by
    rw [blocked_suits run h]
    rintro ⟨i, v, hi, hu, hs⟩
    rcases hk i v hi with hk | hk
    · rw [hk] at hu; cases hu
    · exact hs hk
  have hc := call_suits hr h
  rw [if_neg hb, show strips args = args.map MV.strip from rfl] at hc
  cases hrun : run f (args.map MV.strip) with
  | none => rw [hrun] at hc; exact hc
  | some v =>
    rw [hrun] at hc
    refine ⟨_, hc, rfl, fun a => ⟨fun hca => ?_, ?_⟩⟩
    · obtain ⟨w, hw, hd⟩ := List.mem_flatMap.1 (carries_leaf hca)
      exact ⟨w, hw, (deep_iff a w).1 hd⟩
    · rintro ⟨w, hw, hca⟩
      exact .here (List.mem_flatMap.2 ⟨w, hw, (deep_iff a w).2 hca⟩)

/-- `parseint` deals with marks on its own. -/
example : mcall (SFn.parseint.spec Demo.run) [.leaf [sensitiveMark] (.str (b "7")), .leaf [b "x"] (int 10)] = .ok (.leaf [sensitiveMark, b "x"] (int 7)) ∧
    mcall (SFn.parseint.spec Demo.run) [.leaf [sensitiveMark] (.str []), .leaf [b "x"] (int 10)] = .err := ⟨rfl, rfl⟩

/-- `startswith` of an unknown text can be known, and is marked. -/
example : mcall (SFn.startswith.spec Demo.run) [.leaf [sensitiveMark] (.unk .str), .leaf [] (.str [])] = .ok (.leaf [sensitiveMark] (.bool true)) ∧
    mcall (SFn.startswith.spec Demo.run) [.leaf [sensitiveMark] (.unk .str), .leaf [] (.str (b "a"))] = .ok (.leaf [sensitiveMark] (.unk .bool)) := ⟨rfl, rfl⟩

/-- The hypotheses of `C153_known` are met. -/
example : Suits .parseint [.leaf [sensitiveMark] (.str (b "7")), .leaf [b "x"] (int 10)] where
  enough := Nat.le_refl _
  typed i v h := by
    match i, h with
    | 0, h => cases h; rfl
    | 1, h => cases h; rfl
  given v h := by
    simp only [List.mem_cons, List.not_mem_nil, or_false] at h
    rcases h with rfl | rfl <;> rfl

/-- C153: no call breaks its promise about the type of its result, and none panics because of a null result. -/
theorem C153_ends {run : Run} (hr : run.Ok) (f : SFn) (args : List MV) : mcall (f.spec run) args = .err ∨
    ∃ r, mcall (f.spec run) args = .ok r ∧ r.strip.isNull = false ∧ (r.ty = f.result ∨ r.strip = .unk .dyn) := by
  rcases not_suits run f args with hn | ⟨hd, _⟩ | hs
  · unfold mcall; rw [hn]; exact .inl rfl
  · unfold mcall; rw [hd]; exact .inr ⟨_, rfl, rfl, .inr rfl⟩
  · rw [call_suits hr hs]
    split
    · exact .inr ⟨_, rfl, rfl, .inl rfl⟩
    · cases hrun : run f (strips args) with
      | none => exact .inl rfl
      | some v => exact .inr ⟨_, rfl, (hr f _ v hrun).2, .inl (hr f _ v hrun).1⟩

/-- C153, the part that holds of what is hidden: two calls whose arguments differ only in what is marked with `a` have results that differ only in what is marked
with `a`.  Missing: arguments whose type is not known, and unknown arguments of the functions that deal with marks on their own (`C153_violated`). -/
theorem C153_hidden_partial {run : Run} (hr : run.Ok) (f : SFn) (a : Mark) {args args' : List MV} (hs : SameAll a args args')
    (ht : ∀ v ∈ args ++ args', v.strip ≠ .unk .dyn) (hk : f.own = true → ∀ v ∈ args ++ args', v.strip.known = true)
    {r r' : MV} (h : mcall (f.spec run) args = .ok r) (h' : mcall (f.spec run) args' = .ok r') : Same a r r' := by
  have suits : ∀ {args r}, (∀ v ∈ args, v.strip ≠ .unk .dyn) → mcall (f.spec run) args = .ok r → Suits f args := by
    intro args r ht h
    rcases C153_refuses run f h with hs | ⟨⟨v, hv, hd⟩, _⟩
    · exact hs
    · exact absurd hd (ht v hv)
  have hs1 := suits (fun v hv => ht v (List.mem_append_left _ hv)) h
  have hs2 := suits (fun v hv => ht v (List.mem_append_right _ hv)) h'
  have marked : ∀ {args r}, Suits f args → (f.own = true → ∀ v ∈ args, v.strip.known = true) → mcall (f.spec run) args = .ok r →
      (∃ v ∈ args, Carries a v) → a ∈ r.marks := by
    intro args r hsu hk h hc
    by_cases hb : ∃ (i : Nat) (v : MV), args[i]? = some v ∧ v.strip.known = false ∧ ¬ (f = .startswith ∧ i = 0)
    · obtain ⟨i, v, hi, hu, hns⟩ := hb
      have ho : f.own = false := by
        cases ho : f.own with
        | false => rfl
        | true => rw [hk ho v (List.mem_of_getElem? hi)] at hu; cases hu
      rw [call_suits hr hsu, if_pos ((blocked_suits run hsu).2 ⟨i, v, hi, hu, hns⟩)] at h
      cases h
      exact mem_resultMarks (by rw [spec_own, ho]) hc
    · rw [call_suits hr hsu, if_neg fun hbl => hb ((blocked_suits run hsu).1 hbl)] at h
      split at h
      · cases h
      · cases h
        obtain ⟨v, hv, hca⟩ := hc
        exact List.mem_flatMap.2 ⟨v, hv, (deep_iff a v).2 hca⟩
  by_cases hc : ∃ v ∈ args, Carries a v
  · exact .hidden (marked hs1 (fun ho v hv => hk ho v (List.mem_append_left _ hv)) h hc)
      (marked hs2 (fun ho v hv => hk ho v (List.mem_append_right _ hv)) h' (hs.carries hc))
  · rw [← hs.eq fun v hv hcv => hc ⟨v, hv, hcv⟩, h] at h'
    cases h'
    exact Same.refl a r

/-- Two passwords: the results are marked. -/
example : ∃ r r', mcall (SFn.base64decode.spec Demo.run) [.leaf [sensitiveMark] (.str (b "p"))] = .ok r ∧
    mcall (SFn.base64decode.spec Demo.run) [.leaf [sensitiveMark] (.str (b "q"))] = .ok r' ∧ r.strip = .str (b "p") ∧ r'.strip = .str (b "q") ∧
    Same sensitiveMark r r' :=
  ⟨_, _, rfl, rfl, rfl, rfl, C153_hidden_partial Demo.run_ok .base64decode sensitiveMark
    (args := [.leaf [sensitiveMark] (.str (b "p"))]) (args' := [.leaf [sensitiveMark] (.str (b "q"))])
    ⟨rfl, fun i v v' h h' => by
      match i, h, h' with
      | 0, h, h' => cases h; cases h'; exact ⟨.hidden (List.mem_singleton.2 rfl) (List.mem_singleton.2 rfl), rfl⟩⟩
    (fun v hv => by simp at hv; rcases hv with rfl | rfl <;> simp [MV.strip])
    (fun _ v hv => by simp at hv; rcases hv with rfl | rfl <;> rfl) rfl rfl⟩

/-- Arguments of the functions that deal with marks on their own: sensitive and not known yet. -/
def Demo.secrets : SFn → List MV
  | .fileset => [.leaf [sensitiveMark] (.unk .str), .leaf [] (.str (b "*"))]
  | .parseint => [.leaf [sensitiveMark] (.unk .str), .leaf [] (int 10)]
  | _ => [.leaf [sensitiveMark] (.unk .str)]

/-- C153 is violated for marks: `base64decode`, `file`, `filebase64`, `fileexists`, `fileset` and `parseint` have `AllowMarked` but not `AllowUnknown`.  `Call`
gives up before `Impl` can put the marks on the result: of a sensitive argument that is not known yet, the result is not marked. -/
theorem C153_violated (run : Run) (f : SFn) (hf : f.own = true) : ∃ args r, Suits f args ∧ (∃ v ∈ args, sensitiveMark ∈ v.marks) ∧
    mcall (f.spec run) args = .ok r ∧ ¬ Carries sensitiveMark r := by
  refine ⟨Demo.secrets f, .leaf [] (.unk f.result), ?_, ?_, ?_, fun h => nomatch carries_leaf h⟩
  · refine ⟨?_, fun i v h => ?_, fun v h => ?_⟩
    · cases f <;> first | (cases hf; done) | exact Nat.le_refl _
    · cases f <;> first
        | (cases hf; done)
        | (match i, h with
           | 0, h => cases h; rfl
           | 1, h => first | (cases h; rfl) | (cases h; done)
           | n + 2, h => cases h)
    · cases f <;> first
        | (cases hf; done)
        | (simp only [Demo.secrets, List.mem_cons, List.not_mem_nil, or_false] at h
           first
           | (subst h; rfl)
           | (rcases h with rfl | rfl <;> rfl))
  · cases f <;> first
      | (cases hf; done)
      | exact ⟨_, List.mem_cons_self .., List.mem_singleton.2 rfl⟩
  · cases f <;> first
      | (cases hf; done)
      | rfl

/-- Known, the same argument gives a result that is marked. -/
example : ∃ r, mcall (SFn.base64decode.spec Demo.run) [.leaf [sensitiveMark] (.str (b "p"))] = .ok r ∧ sensitiveMark ∈ r.marks :=
  ⟨_, rfl, List.mem_singleton.2 rfl⟩

end Verif.Typed

import Verif.Lemmas.TypedMarks
import Verif.Props.Typed
/-!
# Properties C131 to C133: what is marked stays hidden, marks do not change values, and where marks come from

`MConv.Ok` (`Spec/TypedMarks`) says what is assumed of `convert.Convert` for values with marks; `Demo.mconv` is one that meets it.
-/
namespace Verif.Typed
open Funcs (Mark sensitiveMark)

namespace Demo

/-- `Demo.ext` with marks: what is not wholly known and does not fit becomes unknown, with all marks. -/
def mconv : MConv := fun v t => if cmp true t v.ty then some v else if v.strip.whole then none else some (.leaf v.deep (.unk t))

theorem mconv_cases {v r : MV} {t : Ty} (h : mconv v t = some r) :
    (cmp true t v.ty = true ∧ r = v) ∨ (cmp true t v.ty = false ∧ r = .leaf v.deep (.unk t)) := by
  simp only [mconv] at h
  split at h
  · next hc => cases h; exact .inl ⟨hc, rfl⟩
  · next hc =>
    split at h
    · cases h
    · cases h; exact .inr ⟨by simpa using hc, rfl⟩

theorem mconv_ok : mconv.Ok ext where
  strip v t := by
    show Option.map MV.strip (if cmp true t v.strip.ty then some v else if v.strip.whole then none else some (.leaf v.deep (.unk t))) =
      if cmp true t v.strip.ty then some v.strip else if v.strip.whole then none else some (.unk t)
    by_cases hc : cmp true t v.strip.ty = true
    · rw [if_pos hc, if_pos hc]; rfl
    · rw [if_neg hc, if_neg hc]
      by_cases hw : v.strip.whole = true
      · rw [if_pos hw, if_pos hw]; rfl
      · rw [if_neg hw, if_neg hw]; rfl
  old a v t r h hc := by
    rcases mconv_cases h with ⟨_, rfl⟩ | ⟨_, rfl⟩
    · exact hc
    · exact (deep_iff a v).1 (carries_leaf hc)
  kept a v t r h ha := by
    rcases mconv_cases h with ⟨_, rfl⟩ | ⟨_, rfl⟩
    · exact ha
    · exact (deep_iff a v).2 (.here ha)
  same a v v' t r r' hs hty h h' := by
    rcases mconv_cases h with ⟨hc, rfl⟩ | ⟨hc, rfl⟩
    · rcases mconv_cases h' with ⟨_, rfl⟩ | ⟨hc', _⟩
      · exact hs
      · rw [hty, hc'] at hc; cases hc
    · rcases mconv_cases h' with ⟨hc', _⟩ | ⟨_, rfl⟩
      · rw [hty, hc'] at hc; cases hc
      · by_cases hv : Carries a v
        · exact .hidden ((deep_iff a v).2 hv) ((deep_iff a v').2 (hs.carries hv))
        · rw [hs.eq hv]; exact .leaf _ _

/-- A string with marks. -/
def str (ms : List Mark) (s : String) : MV := .leaf ms (.str (b s))

/-- A map with a password that is marked and a name that is not. -/
def login (pw : String) : MV := .map [] .str [(b "name", str [] "ann"), (b "pw", str [sensitiveMark] pw)]

theorem login_same (p q : String) : Same sensitiveMark (login p) (login q) := by
  refine .map _ _ rfl fun i v v' h h' => ?_
  match i, h, h' with
  | 0, h, h' => cases h; cases h'; exact Same.refl _ _
  | 1, h, h' => cases h; cases h'; exact .hidden (List.mem_singleton.2 rfl) (List.mem_singleton.2 rfl)

end Demo
open Demo (str login)

/-! ## C131 -/

/-- C131, the part that holds: two calls whose arguments differ only in parts that are marked with `a` have results that differ only in parts that are
marked with `a`.  Missing: arguments with which `Call` gives up early, because they are unknown (see `C131_violated`); `sensitive` drops other
marks (`C25_violated`), and `nonsensitive` is there to show what is sensitive. -/
theorem C131_hidden_partial {x : Ext} {conv : MConv} (hc : conv.Ok x) (f : MFn) (a : Mark) (hf : f = .sensitive → a = sensitiveMark)
    (hf' : f = .nonsensitive → a ≠ sensitiveMark) {args args' : List MV} (hs : SameAll a args args') (hr : Ready f args) (hr' : Ready f args')
    {r r' : MV} (h : mcall (f.spec x conv) args = .ok r) (h' : mcall (f.spec x conv) args' = .ok r') : Same a r r' :=
  call_same hc f a hf hf' hs hr hr' h h'

/-- `length` and `lookup` of the name show nothing of the password; `lookup` of the password is marked. -/
example : mcall ((MFn.fn .length).spec Demo.ext Demo.mconv) [login "abc"] = .ok (.leaf [] (int 2)) ∧
    mcall ((MFn.fn .lookup).spec Demo.ext Demo.mconv) [login "abc", str [] "name"] = .ok (str [] "ann") ∧
    mcall ((MFn.fn .lookup).spec Demo.ext Demo.mconv) [login "abc", str [] "pw"] = .ok (str [sensitiveMark] "abc") := ⟨rfl, rfl, rfl⟩

/-- A default value in place of what is not in the map; the marks of the key and of the default value are on the result. -/
example : mcall ((MFn.fn .lookup).spec Demo.ext Demo.mconv) [login "abc", str [sensitiveMark] "mail", str [b "x"] "none"] =
    .ok (str [b "x", sensitiveMark] "none") := rfl

/-- `index`, which sees no marks: the result is marked since the list has a marked element. -/
example : mcall ((MFn.fn .index).spec Demo.ext Demo.mconv) [.list [] .str [str [] "a", str [sensitiveMark] "s"], str [] "a"] =
    .ok (.leaf [sensitiveMark] (int 0)) := rfl

/-- The hypotheses of `C131_hidden_partial` are met by different passwords. -/
example {r r' : MV} (k : String) (h : mcall ((MFn.fn .lookup).spec Demo.ext Demo.mconv) [login "abc", str [] k] = .ok r)
    (h' : mcall ((MFn.fn .lookup).spec Demo.ext Demo.mconv) [login "xyz", str [] k] = .ok r') : Same sensitiveMark r r' := by
  refine C131_hidden_partial (args := [login "abc", str [] k]) (args' := [login "xyz", str [] k]) Demo.mconv_ok (.fn .lookup) sensitiveMark
    (fun h => nomatch h) (fun h => nomatch h) ⟨rfl, fun i v v' hv hv' => ?_⟩ (fun i v hv => ?_) (fun i v hv => ?_) h h'
  · match i, hv, hv' with
    | 0, hv, hv' => cases hv; cases hv'; exact ⟨Demo.login_same _ _, rfl⟩
    | 1, hv, hv' => cases hv; cases hv'; exact ⟨Same.refl _ _, rfl⟩
  · match i, hv with
    | 0, hv => cases hv; exact fun _ => rfl
    | 1, hv => cases hv; exact fun _ => rfl
  · match i, hv with
    | 0, hv => cases hv; exact fun _ => rfl
    | 1, hv => cases hv; exact fun _ => rfl

/-- An object that is not known yet. -/
def Demo.later : MV := .leaf [] (.unk (.obj [(b "a", .str), (b "n", .num)]))

/-- C131 is violated: with an object that is not known yet, `lookup` of a sensitive key gives an unknown value that is not marked; its type tells which key it
was.  The lines that would mark it (collection.go L300-302) are never reached, since the parameter does not have `AllowUnknown`.  So it is for
`tostring` and the like: of a sensitive value that is not known yet they give one that is not marked. -/
theorem C131_violated :
    (∃ r r', SameAll sensitiveMark [Demo.later, str [sensitiveMark] "a"] [Demo.later, str [sensitiveMark] "n"] ∧
      mcall ((MFn.fn .lookup).spec Demo.ext Demo.mconv) [Demo.later, str [sensitiveMark] "a"] = .ok r ∧
      mcall ((MFn.fn .lookup).spec Demo.ext Demo.mconv) [Demo.later, str [sensitiveMark] "n"] = .ok r' ∧
      ¬ Same sensitiveMark r r') ∧
    (∃ r, mcall ((MFn.fn (.to .str)).spec Demo.ext Demo.mconv) [.leaf [sensitiveMark] (.unk .str)] = .ok r ∧ ¬ Carries sensitiveMark r) := by
  refine ⟨⟨_, _, ⟨rfl, fun i v v' h h' => ?_⟩, rfl, rfl, fun h => ?_⟩, _, rfl, fun h => ?_⟩
  · match i, h, h' with
    | 0, h, h' => cases h; cases h'; exact ⟨Same.refl _ _, rfl⟩
    | 1, h, h' => cases h; cases h'; exact ⟨.hidden (List.mem_singleton.2 rfl) (List.mem_singleton.2 rfl), rfl⟩
  · cases h with
    | hidden h => cases h
  · cases carries_leaf h

/-! ## C132 -/

/-- C132: a call with marks ends as the call without the marks does, with the same value except for marks. -/
theorem C132_values {x : Ext} {conv : MConv} (hc : conv.Ok x) (f : Fn) (args : List MV) :
    (mcall ((MFn.fn f).spec x conv) args).strip = call (f.spec x) (strips args) := mcall_strip (fn_refines hc f) args

/-- C132 for `sensitive` and `nonsensitive`: they take every value, and do nothing to it. -/
theorem C132_sensitive (x : Ext) (conv : MConv) (v : MV) :
    (mcall (MFn.sensitive.spec x conv) [v]).strip = .ok v.strip ∧ (mcall (MFn.nonsensitive.spec x conv) [v]).strip = .ok v.strip := by
  have hfit : ∀ t : Ty, cmp true t t = true := fun t => (cmp_iff t t).2 (Fits.refl t)
  have hchk : checkArgs [anyParam] none (strips [v]) = .ok := by
    simp only [strips, List.map_cons, List.map_nil, checkArgs, checkArg, anyParam, Bool.not_true, Bool.and_false, Bool.false_eq_true, if_false]
    have hd : ∀ t, cmp true .dyn t = true := fun t => (cmp_iff _ _).2 (.any t)
    cases v.strip.ty <;> simp [hd]
  have hblk : blocked [anyParam] none (strips [v]) = false := by simp [strips, blocked, anyParam]
  constructor <;>
  · simp only [mcall, mreturnType, MFn.spec, marity, List.length_singleton, beq_self_eq_true, if_true, hchk, seen, mkeepType, Option.map_some, hblk,
      Bool.false_eq_true, if_false, msensitiveImpl, mnonsensitiveImpl, MV.ty, strip_withMarks, strip_unmark, hfit, Bool.false_and, MOut.strip]

/-- A key that is marked finds what one that is not marked does; an error stays one. -/
example : (mcall ((MFn.fn .lookup).spec Demo.ext Demo.mconv) [login "abc", str [sensitiveMark] "name"]).strip = .ok (.str (b "ann")) ∧
    (mcall ((MFn.fn .lookup).spec Demo.ext Demo.mconv) [login "abc", str [sensitiveMark] "mail"]).strip = .err := ⟨rfl, rfl⟩

/-! ## C133 -/

/-- C133: no mark comes from nowhere.  The marks of a result, at any depth, are marks of arguments, or the one that the function is there to add. -/
theorem C133_old {x : Ext} {conv : MConv} (hc : conv.Ok x) (f : MFn) (a : Mark) {args : List MV} {r : MV}
    (h : mcall (f.spec x conv) args = .ok r) (ha : Carries a r) : (∃ v ∈ args, Carries a v) ∨ adds f a := call_old hc f a h ha

/-- C133: the result has the marks of the arguments themselves, except for those of the default value of `lookup`. -/
theorem C133_kept_partial {x : Ext} {conv : MConv} (hc : conv.Ok x) (f : Fn) (a : Mark) {args : List MV} (hr : Ready (.fn f) args) {i : Nat} {v : MV}
    (hv : args[i]? = some v) (hl : f = .lookup → i < 2) (ha : a ∈ v.marks) {r : MV} (h : mcall ((MFn.fn f).spec x conv) args = .ok r) :
    a ∈ r.marks := call_kept hc f hr hv hl ha h

/-- C133: the result of a function that does not deal with marks on its own has the marks of the arguments and of all their parts. -/
theorem C133_deep_partial {x : Ext} {conv : MConv} (f : MFn) (a : Mark)
    (hf : ∀ w, f ≠ .fn .length ∧ f ≠ .fn .lookup ∧ f ≠ .fn (.to w) ∧ f ≠ .sensitive ∧ f ≠ .nonsensitive) {args : List MV} (hr : Ready f args)
    (hc : ∃ v ∈ args, Carries a v) {r : MV} (h : mcall (f.spec x conv) args = .ok r) : a ∈ r.marks := by
  refine plain_kept f ?_ hr hc h
  cases f with
  | fn f =>
    cases f with
    | length => exact absurd rfl (hf .dyn).1
    | lookup => exact absurd rfl (hf .dyn).2.1
    | to w => exact absurd rfl (hf w).2.2.1
    | _ => rfl
  | sensitive => exact absurd rfl (hf .dyn).2.2.2.1
  | nonsensitive => exact absurd rfl (hf .dyn).2.2.2.2

/-- C133 is violated for the marks of the arguments: `tostring` of a marked value that is not known yet has no marks; `lookup` of a key that is there does not
have the marks of the default value; `sensitive` drops the marks that its argument has (see `C25_violated`). -/
theorem C133_violated (a : Mark) (ha : a ≠ sensitiveMark) :
    (∃ r, mcall ((MFn.fn (.to .str)).spec Demo.ext Demo.mconv) [.leaf [a] (.unk .str)] = .ok r ∧ ¬ Carries a r) ∧
    (∃ r, mcall ((MFn.fn .lookup).spec Demo.ext Demo.mconv) [login "abc", str [] "name", str [a] "none"] = .ok r ∧ ¬ Carries a r) ∧
    (∃ r, mcall (MFn.sensitive.spec Demo.ext Demo.mconv) [str [a] "s"] = .ok r ∧ ¬ Carries a r) := by
  refine ⟨⟨.leaf [] (.unk .str), rfl, fun h => ?_⟩, ⟨str [] "ann", rfl, fun h => ?_⟩, str [sensitiveMark] "s", rfl, fun h => ?_⟩
  · cases carries_leaf h
  · cases carries_leaf h
  · exact ha (List.mem_singleton.1 (carries_leaf h))

/-- `one` of a list with a marked element; `type`, which adds a mark; `sum` with a number that is unknown and marked. -/
example : mcall ((MFn.fn .one).spec Demo.ext Demo.mconv) [.list [b "l"] .str [str [sensitiveMark] "s"]] = .ok (str [b "l", sensitiveMark] "s") ∧
    mcall ((MFn.fn .typ).spec Demo.ext Demo.mconv) [str [sensitiveMark] "s"] = .ok (.leaf [b "TypeType", sensitiveMark] (.typ .str)) ∧
    mcall ((MFn.fn .sum).spec Demo.ext Demo.mconv) [.list [] .num [.leaf [b "u"] (.unk .num)]] = .ok (.leaf [b "u"] (.unk .num)) := ⟨rfl, rfl, rfl⟩

end Verif.Typed

import Verif.Lemmas.TypedFinal
/-!
# Properties C126 to C130: types of results, what unknown results promise, and errors that are final

`Ext.Ok`, `Ext.Stable` and `Ext.Final` (`Spec/Typed`) say what is assumed of `convert.Convert` and `stdlib.Equal`; `Demo.ext` is one that meets them.
-/
namespace Verif.Typed
open Funcs (K Res BF)

/-! ## Conversions and comparisons for the examples -/

namespace Demo

/-- A value of a fitting type is left as it is; others are refused, or unknown if they are not wholly known.  Types are unified to the last
one that is not open. -/
def ext : Ext where
  conv v t := if cmp true t v.ty then some v else if v.whole then none else some (.unk t)
  canConv g w := match g with
    | .bool => cmp true w g
    | _ => true
  unify ts := some ((ts.filter fun t => !cmp false .dyn t).getLast?.getD .dyn)
  equal a c := match a, c with
    | .str s, .str s' => some (.bool (s == s'))
    | .num n, .num n' => some (.bool (n.val == n'.val))
    | _, _ => some (.unk .bool)
  strlen s := s.length

theorem conv_cases {v r : V} {t : Ty} (h : ext.conv v t = some r) : (Fits v.ty t ∧ r = v) ∨ (¬ Fits v.ty t ∧ Open v ∧ r = .unk t) := by
  simp only [ext] at h
  split at h
  · next hc => cases h; exact .inl ⟨(cmp_iff _ _).1 hc, rfl⟩
  · next hc =>
    split at h
    · cases h
    · next hw =>
      cases h
      exact .inr ⟨fun h => hc ((cmp_iff _ _).2 h), Classical.not_not.1 fun h => hw ((whole_iff v).2 h), rfl⟩

theorem ok : ext.Ok where
  good v t r hg h := by
    rcases conv_cases h with ⟨_, rfl⟩ | ⟨_, _, rfl⟩
    · exact hg
    · exact .unk t
  fits v t r hg h := by
    rcases conv_cases h with ⟨hf, rfl⟩ | ⟨_, _, rfl⟩
    · exact hf
    · exact Fits.refl t
  null v t r h := by
    rcases conv_cases h with ⟨_, rfl⟩ | ⟨_, ho, rfl⟩
    · rfl
    · cases ho <;> rfl
  self v := by simp only [ext]; rw [if_pos ((cmp_iff _ _).2 (Fits.refl _))]

theorem stable : ext.Stable where
  conv v v' t r r' _ _ hb h h' := by
    rcases conv_cases h with ⟨hf, rfl⟩ | ⟨_, _, rfl⟩
    · rcases conv_cases h' with ⟨_, rfl⟩ | ⟨hn, _, _⟩
      · exact hb
      · exact absurd (hb.ty.trans hf) hn
    · refine .unk ?_
      rcases conv_cases h' with ⟨hf', rfl⟩ | ⟨_, _, rfl⟩
      · exact hf'
      · exact Fits.refl t
  equal a a' c c' r ha hc h := by
    simp only [ext] at h
    split at h
    · cases ha; cases hc; exact h
    · cases ha; cases hc; exact h
    · cases h

theorem final : ext.Final where
  conv v v' t _ _ hb h := by
    simp only [ext] at h
    split at h
    · cases h
    next hc =>
    split at h
    · next hw =>
      rw [hb.eq ((whole_iff v).1 hw)]
      simp only [ext]
      rw [if_neg hc, if_pos hw]
    · cases h
  whole v t r ho h := by
    rcases conv_cases h with ⟨_, rfl⟩ | ⟨_, hn, _⟩
    · exact ho
    · exact absurd hn ho
  equal a a' c c' _ _ h := by
    simp only [ext] at h
    split at h <;> cases h
  bool a c r h := by
    simp only [ext] at h
    split at h <;> cases h
    · exact .inl ⟨_, rfl⟩
    · exact .inl ⟨_, rfl⟩
    · exact .inr ⟨_, rfl⟩
  unify ts ts' _ _ h := by cases h
  can g g' w hf h := by
    simp only [ext] at h ⊢
    cases g with
    | bool => cases hf; exact h
    | _ => exact .inr rfl

/-- As `ext`, but a number becomes a string, and a tuple with an unknown string a list with an unknown number. -/
def ext2 : Ext := { ext with
  conv := fun v t => match v, t with
    | .num _, .str => some (.str (b "5"))
    | .tup [.unk .str], .list .num => some (.list .num [.unk .num])
    | v, t => ext.conv v t }

theorem ok2 : ext2.Ok where
  good v t r hg h := by
    simp only [ext2] at h
    split at h
    · cases h; exact .str _
    · cases h
      refine .list (fun v hv => ?_) (fun v hv => ?_)
      · rw [List.mem_singleton.1 hv]; exact .unk _
      · rw [List.mem_singleton.1 hv]; rfl
    · exact ok.good _ _ _ hg h
  fits v t r hg h := by
    simp only [ext2] at h
    split at h
    · cases h; exact .str
    · cases h; exact Fits.refl _
    · exact ok.fits _ _ _ hg h
  null v t r h := by
    simp only [ext2] at h
    split at h
    · cases h; rfl
    · cases h; rfl
    · exact ok.null _ _ _ h
  self v := by
    simp only [ext2]
    split
    · next h => cases h
    · next h => cases h
    · exact ok.self _

/-- a string -/
def s (x : String) : V := .str (b x)

/-- an unknown string -/
def us : V := .unk .str

/-- a number -/
def n (x : Nat) : V := int x

end Demo

/-! ## C126: results have the type that was announced -/

/-- **C126**: a call of any of the functions on values of consistent types ends with an error, or with a consistent value of the type that
`ReturnTypeForValues` announces for the same arguments, which is not null for functions that say so; it never ends with a value of another
type, nor with the panic of refining null as not null. -/
theorem C126_conforms (x : Ext) (hx : x.Ok) (f : Fn) (args : List V) (hg : ∀ a ∈ args, Good a) :
    call (f.spec x) args = .err ∨
    ∃ v T d, call (f.spec x) args = .ok v ∧ returnType (f.spec x) args = some (T, d) ∧
      Good v ∧ Fits v.ty T ∧ (neverNull f = true → v.isNull = false) := by
  rcases call_ok hx f hg with h | ⟨v, T, d, h1, h2, h3⟩
  · exact .inl h
  · exact .inr ⟨v, T, d, h1, h2, h3⟩

/-- Nothing is lost: the value of a known attribute has the announced type. -/
example : call (Fn.lookup.spec Demo.ext) [.obj [(b "a", Demo.us), (b "b", .tup [Demo.n 1, .unk .dyn])], Demo.s "b"] =
    .ok (.tup [Demo.n 1, .unk .dyn]) ∧
    returnType (Fn.lookup.spec Demo.ext) [.obj [(b "a", Demo.us), (b "b", .tup [Demo.n 1, .unk .dyn])], Demo.s "b"] =
      some (.tup [.num, .dyn], false) := ⟨rfl, rfl⟩

/-- **C126**: the retired functions `list` and `map` give an error for all arguments. -/
theorem C126_retired (x : Ext) (args : List V) :
    call (Fn.list.spec x) args = .err ∧ call (Fn.map.spec x) args = .err := by
  have key : ∀ f : FSpec, (∀ a, f.type a = none) → checkArgs f.params f.var args ≠ .dyn → call f args = .err := by
    intro f hf hd
    unfold call
    cases hr : returnType f args with
    | none => rfl
    | some p =>
      obtain ⟨T, d⟩ := p
      obtain ⟨_, ⟨h, _⟩ | ⟨_, h, _⟩⟩ := returnType_cases hr
      · exact absurd h hd
      · rw [hf] at h; cases h
  have hall : ∀ l : List V, checkArgs [] (some anyParam) l = .ok := by
    intro l
    induction l with
    | nil => simp [checkArgs]
    | cons v l ih =>
      have : checkArg anyParam v = .ok := by
        unfold checkArg
        split
        · next h => simp [anyParam] at h
        · split
          · rfl
          · next h => exact if_pos ((cmp_iff _ _).2 (Fits.any _))
      simp only [checkArgs, this, ih]
  have hne : checkArgs [] (some anyParam) args ≠ .dyn := by rw [hall args]; intro h; cases h
  exact ⟨key _ (fun _ => rfl) hne, key _ (fun _ => rfl) hne⟩

/-! ## C127: announced types stay right -/

/-- **C127** for all functions but `coalesce`: if the arguments turn out to be others, the type announced for these fits the type announced
before.  Missing: `coalesce`, for which it is wrong (`C127_violated`). -/
theorem C127_types_partial (x : Ext) (f : Fn) (hf : f ≠ .coalesce) (args args' : List V) (h : BecomesAll args args') (T T' : Ty)
    (d d' : Bool) (hr : returnType (f.spec x) args = some (T, d)) (hr' : returnType (f.spec x) args' = some (T', d')) : Fits T' T :=
  (returnType_stable x f h (fun h => absurd h hf) hr hr').1

/-- The type of an attribute that is not known becomes known. -/
example : returnType (Fn.lookup.spec Demo.ext) [.obj [(b "a", .tup [.unk .dyn])], Demo.s "a"] = some (.tup [.dyn], false) ∧
    returnType (Fn.lookup.spec Demo.ext) [.obj [(b "a", .tup [Demo.n 1])], Demo.s "a"] = some (.tup [.num], false) ∧
    BecomesAll [.obj [(b "a", .tup [.unk .dyn])], Demo.s "a"] [.obj [(b "a", .tup [Demo.n 1])], Demo.s "a"] := by
  refine ⟨rfl, rfl, rfl, fun i v v' hv hv' => ?_⟩
  match i, hv, hv' with
  | 0, rfl, rfl =>
    refine .obj rfl fun j p p' hp hp' => ?_
    match j, hp, hp' with
    | 0, rfl, rfl =>
      refine .tup rfl fun k w w' hw hw' => ?_
      match k, hw, hw' with
      | 0, rfl, rfl => exact .unk (.any _)
  | 1, rfl, rfl => exact .refl _

/-- **C127** is wrong for `coalesce`, if `UnifyUnsafe` takes a number and a value of unknown type to a number, and a number and a string to
a string: the announced type is number, and then string.  With conversions that leave a number and turn it into a string the result, too,
is a number first and a string later. -/
theorem C127_violated (x : Ext) (a : BF) (s t : Bytes) (hs : s ≠ [])
    (h1 : x.unify [.num, .dyn] = some .num) (h2 : x.unify [.num, .str] = some .str)
    (c1 : x.conv (.num a) .num = some (.num a)) (c2 : x.conv (.num a) .str = some (.str s)) :
    BecomesAll [.num a, .unk .dyn] [.num a, .str t] ∧
    returnType (Fn.coalesce.spec x) [.num a, .unk .dyn] = some (.num, false) ∧
    returnType (Fn.coalesce.spec x) [.num a, .str t] = some (.str, false) ∧
    call (Fn.coalesce.spec x) [.num a, .unk .dyn] = .ok (.num a) ∧
    call (Fn.coalesce.spec x) [.num a, .str t] = .ok (.str s) ∧
    ¬ Fits .str .num ∧ ¬ Becomes (.num a) (.str s) := by
  have r1 : returnType (Fn.coalesce.spec x) [.num a, .unk .dyn] = some (.num, false) := by
    show (x.unify [.num, .dyn]).map _ = _
    rw [h1]; rfl
  have r2 : returnType (Fn.coalesce.spec x) [.num a, .str t] = some (.str, false) := by
    show (x.unify [.num, .str]).map _ = _
    rw [h2]; rfl
  refine ⟨⟨rfl, fun i v v' hv hv' => ?_⟩, r1, r2, ?_, ?_, (by intro h; cases h), (by intro h; cases h)⟩
  · match i, hv, hv' with
    | 0, rfl, rfl => exact .refl _
    | 1, rfl, rfl => exact .unk (.any _)
  · have hi : (Fn.coalesce.spec x).impl [.num a, .unk .dyn] .num = some (.num a) := by
      show coalesceImpl x _ _ = _
      simp only [coalesceImpl, List.map_cons, converted, c1, Funcs.coalesce, isEmpty]
      rfl
    unfold call
    rw [r1]
    dsimp only
    rw [show blocked (Fn.coalesce.spec x).params (Fn.coalesce.spec x).var [.num a, .unk .dyn] = false from rfl, hi]
    rfl
  · have he : s.isEmpty = false := by cases s with
      | nil => exact absurd rfl hs
      | cons => rfl
    have hi : (Fn.coalesce.spec x).impl [.num a, .str t] .str = some (.str s) := by
      show coalesceImpl x _ _ = _
      simp only [coalesceImpl, List.map_cons, converted, c2, Funcs.coalesce, isEmpty, he]
      rfl
    unfold call
    rw [r2]
    dsimp only
    rw [show blocked (Fn.coalesce.spec x).params (Fn.coalesce.spec x).var [.num a, .str t] = false from rfl, hi]
    rfl

/-! ## C128: results stay right -/

/-- **C128** where `Steady` holds: if the arguments turn out to be others, and the call gives a value for both, then the first result can turn
out to be the second: what was known of it stays.  Missing: results that were announced too early, for which it is wrong
(`C128_matchkeys_violated`, `C128_lookup_violated`, `C128_type_violated`, `C127_violated`, `C129_violated`). -/
theorem C128_results_partial (x : Ext) (hx : x.Ok) (hs : x.Stable) (f : Fn) (args args' : List V) (h : BecomesAll args args')
    (hg : ∀ a ∈ args, Good a) (hg' : ∀ a ∈ args', Good a) (T T' : Ty) (d d' : Bool) (v v' : V)
    (hr : returnType (f.spec x) args = some (T, d)) (hr' : returnType (f.spec x) args' = some (T', d'))
    (hst : Steady x f T T' args args')
    (hc : call (f.spec x) args = .ok v) (hc' : call (f.spec x) args' = .ok v') : Becomes v v' :=
  call_stable hx hs f h hg hg' hr hr' hst hc hc'

/-- For a tuple with an unknown element, the position of an element before it stays; that of the unknown one is unknown. -/
example : call (Fn.index.spec Demo.ext) [.tup [Demo.s "a", Demo.us, Demo.s "c"], Demo.s "a"] = .ok (Demo.n 0) ∧
    call (Fn.index.spec Demo.ext) [.tup [Demo.s "a", Demo.us, Demo.s "c"], Demo.s "c"] = .ok (.unk .num) ∧
    call (Fn.index.spec Demo.ext) [.tup [Demo.s "a", Demo.s "c", Demo.s "c"], Demo.s "c"] = .ok (Demo.n 1) ∧
    call (Fn.one.spec Demo.ext) [.set .str [Demo.us, Demo.s "a"]] = .ok (.unk .str) ∧
    call (Fn.one.spec Demo.ext) [.set .str [Demo.s "a"]] = .ok (Demo.s "a") := ⟨rfl, rfl, rfl, rfl, rfl⟩

/-- **C128** is wrong for `matchkeys`: if a comparison with an element of the search set is unknown, then the result is the empty list; with
the element known to be the key the result has an element. -/
theorem C128_matchkeys_violated (x : Ext) (hx : x.Ok) (v k : Bytes) (hu : x.unify [.list .str, .list .str] = some (.list .str))
    (e1 : x.equal (.str k) (.unk .str) = some (.unk .bool)) (e2 : x.equal (.str k) (.str k) = some (.bool true)) :
    BecomesAll [.list .str [.str v], .list .str [.str k], .list .str [.unk .str]]
      [.list .str [.str v], .list .str [.str k], .list .str [.str k]] ∧
    call (Fn.matchkeys.spec x) [.list .str [.str v], .list .str [.str k], .list .str [.unk .str]] = .ok (.list .str []) ∧
    call (Fn.matchkeys.spec x) [.list .str [.str v], .list .str [.str k], .list .str [.str k]] = .ok (.list .str [.str v]) ∧
    ¬ Becomes (.list .str []) (.list .str [.str v]) := by
  have hself : ∀ l, x.conv (.list .str l) (.list .str) = some (.list .str l) := fun l => hx.self (.list .str l)
  have hcall : ∀ (w : V) (args : List V) (r : V), w.ty = .str → args = [.list .str [.str v], .list .str [.str k], .list .str [w]] →
      matchkeysImpl x args (.list .str) = some r → r.ty = .list .str → r.isNull = false →
      call (Fn.matchkeys.spec x) args = .ok r := by
    rintro w args r hw rfl hi hr hn
    have h1 : returnType (Fn.matchkeys.spec x) [.list .str [.str v], .list .str [.str k], .list .str [w]] = some (.list .str, false) := by
      show ((x.unify [.list .str, .list .str]).map fun _ => Ty.list .str).map _ = _
      rw [hu]; rfl
    unfold call
    rw [h1]
    dsimp only
    rw [show blocked (Fn.matchkeys.spec x).params (Fn.matchkeys.spec x).var
        [.list .str [.str v], .list .str [.str k], .list .str [w]] = false from rfl,
      show (Fn.matchkeys.spec x).impl [.list .str [.str v], .list .str [.str k], .list .str [w]] (.list .str) = some r from hi]
    simp only [hr, hn]
    rfl
  refine ⟨⟨rfl, fun i a a' ha ha' => ?_⟩, ?_, ?_, ?_⟩
  · match i, ha, ha' with
    | 0, rfl, rfl => exact .refl _
    | 1, rfl, rfl => exact .refl _
    | 2, rfl, rfl =>
      refine .list .str (fun _ => rfl) rfl fun j a a' ha ha' => ?_
      match j, ha, ha' with
      | 0, rfl, rfl => exact .unk .str
  · refine hcall (.unk .str) _ _ rfl rfl ?_ rfl rfl
    simp only [matchkeysImpl, hu, hself, V.elems, V.whole, wholeL, Funcs.matchLoop, Funcs.searchLoop, eqK, e1]
    rfl
  · refine hcall (.str k) _ _ rfl rfl ?_ rfl rfl
    simp only [matchkeysImpl, hu, hself, V.elems, V.whole, wholeL, Funcs.matchLoop, Funcs.searchLoop, eqK, e2]
    rfl
  · intro h
    cases h with
    | list _ _ len _ => cases len

/-- Such an `x` is `Demo.ext`. -/
example : Demo.ext.Ok ∧ Demo.ext.unify [.list .str, .list .str] = some (.list .str) ∧
    Demo.ext.equal (.str (b "k")) (.unk .str) = some (.unk .bool) ∧ Demo.ext.equal (.str (b "k")) (.str (b "k")) = some (.bool true) :=
  ⟨Demo.ok, rfl, rfl, rfl⟩

/-- **C128** is wrong for `lookup`: in a map whose element type is not known yet the default is given as it is; when the element type turns
out to be string, the default is converted. -/
theorem C128_lookup_violated (x : Ext) (a : BF) (s t : Bytes) (c1 : x.conv (.num a) .dyn = some (.num a))
    (c2 : x.conv (.num a) .str = some (.str s)) :
    BecomesAll [.map .dyn [(b "k", .unk .dyn)], .str (b "z"), .num a] [.map .str [(b "k", .str t)], .str (b "z"), .num a] ∧
    call (Fn.lookup.spec x) [.map .dyn [(b "k", .unk .dyn)], .str (b "z"), .num a] = .ok (.num a) ∧
    call (Fn.lookup.spec x) [.map .str [(b "k", .str t)], .str (b "z"), .num a] = .ok (.str s) ∧
    ¬ Becomes (.num a) (.str s) := by
  refine ⟨⟨rfl, fun i v v' hv hv' => ?_⟩, ?_, ?_, (by intro h; cases h)⟩
  · match i, hv, hv' with
    | 0, rfl, rfl =>
      refine .map (.any _) (fun h => ?_) rfl fun j p p' hp hp' => ?_
      · exact absurd (Open.unk _) (h (b "k", .unk .dyn) List.mem_cons_self)
      · match j, hp, hp' with
        | 0, rfl, rfl => exact .unk (.any _)
    | 1, rfl, rfl => exact .refl _
    | 2, rfl, rfl => exact .refl _
  · have h1 : returnType (Fn.lookup.spec x) [.map .dyn [(b "k", .unk .dyn)], .str (b "z"), .num a] = some (.dyn, false) := by
      show ((x.conv (.num a) .dyn).map fun _ => Ty.dyn).map _ = _
      rw [c1]; rfl
    have h2 : (Fn.lookup.spec x).impl [.map .dyn [(b "k", .unk .dyn)], .str (b "z"), .num a] .dyn = some (.num a) := c1
    unfold call
    rw [h1]
    dsimp only
    rw [h2]
    rfl
  · have h1 : returnType (Fn.lookup.spec x) [.map .str [(b "k", .str t)], .str (b "z"), .num a] = some (.str, false) := by
      show ((x.conv (.num a) .str).map fun _ => Ty.str).map _ = _
      rw [c2]; rfl
    have h2 : (Fn.lookup.spec x).impl [.map .str [(b "k", .str t)], .str (b "z"), .num a] .str = some (.str s) := c2
    unfold call
    rw [h1]
    dsimp only
    rw [h2]
    rfl

/-- **C128** is wrong for `type`: the type of a value of unknown type is given as "dynamic", though the value turns out to be a string. -/
theorem C128_type_violated (x : Ext) (s : Bytes) :
    BecomesAll [.unk .dyn] [.str s] ∧ call (Fn.typ.spec x) [.unk .dyn] = .ok (.typ .dyn) ∧
    call (Fn.typ.spec x) [.str s] = .ok (.typ .str) ∧ ¬ Becomes (.typ .dyn) (.typ .str) := by
  refine ⟨⟨rfl, fun i v v' hv hv' => ?_⟩, rfl, rfl, (by intro h; cases h)⟩
  match i, hv, hv' with
  | 0, rfl, rfl => exact .unk (.any _)

/-! ## C129: what coalesce skips -/

/-- `coalesce` goes past the argument: it is null, or the result is to be a string and it is the empty one. -/
def Skipped (x : Ext) (T : Ty) (a : V) : Prop := a.isNull = true ∨ (T = .str ∧ x.conv a T = some (.str []))

/-- **C129** for arguments that can all be converted to the announced type: the result of `coalesce` is the conversion of the first argument
that is neither null nor the empty string, or unknown if that conversion is unknown.  Missing: arguments that cannot be converted, which are
skipped silently (`C129_violated`). -/
theorem C129_coalesce_partial (x : Ext) (hx : x.Ok) (args : List V) (T : Ty) (d : Bool)
    (hr : returnType (Fn.coalesce.spec x) args = some (T, d)) (hconv : ∀ a ∈ args, x.conv a T ≠ none) (v : V)
    (hc : call (Fn.coalesce.spec x) args = .ok v) :
    ∃ (pre : List V) (a : V) (post : List V) (r : V), args = pre ++ a :: post ∧ (∀ p ∈ pre, Skipped x T p) ∧ ¬ Skipped x T a ∧
      x.conv a T = some r ∧ (v = r ∨ (r.known = false ∧ v = .unk T)) := by
  have hblk : ∀ l : List V, blocked [] (some anyParam) l = false := by
    intro l
    induction l with
    | nil => simp [blocked]
    | cons v l ih =>
      simp only [blocked, ih, Bool.or_false]
      simp [anyParam]
  obtain ⟨T1, d1, hr1, hcase⟩ := call_cases hc
  rw [hr] at hr1
  cases hr1
  have himpl : coalesceImpl x args T = some v := by
    rcases hcase with ⟨hbad, _⟩ | ⟨_, _, hi⟩
    · rcases hbad with rfl | hbad
      · obtain ⟨_, ⟨hd, _⟩ | ⟨_, _, hd⟩⟩ := returnType_cases hr
        · have hall : ∀ l : List V, checkArgs [] (some anyParam) l ≠ .dyn := by
            intro l
            induction l with
            | nil => intro h; simp [checkArgs] at h
            | cons v l ih =>
              simp only [checkArgs]
              split
              · exact ih
              · intro h
                unfold checkArg at h
                split at h
                · cases h
                · split at h
                  · simp [anyParam] at h
                  · split at h <;> cases h
          exact absurd hd (hall args)
        · cases hd
      · rw [show blocked (Fn.coalesce.spec x).params (Fn.coalesce.spec x).var args = false from hblk args] at hbad; cases hbad
    · exact hi
  clear hcase hr hc
  induction args with
  | nil => cases himpl
  | cons a l ih =>
    cases hra : x.conv a T with
    | none => exact absurd hra (hconv a List.mem_cons_self)
    | some r =>
    have hrec : coalesceImpl x l T = some v → Skipped x T a →
        ∃ (pre : List V) (a' : V) (post : List V) (r : V), a :: l = pre ++ a' :: post ∧ (∀ p ∈ pre, Skipped x T p) ∧ ¬ Skipped x T a' ∧
          x.conv a' T = some r ∧ (v = r ∨ (r.known = false ∧ v = .unk T)) := by
      intro h hsk
      obtain ⟨pre, a', post, r, h1, h2, h3⟩ := ih (fun a h => hconv a (List.mem_cons_of_mem _ h)) h
      refine ⟨a :: pre, a', post, r, by rw [h1]; rfl, fun p hp => ?_, h3⟩
      rcases List.mem_cons.1 hp with rfl | hp
      · exact hsk
      · exact h2 p hp
    have hnull := hx.null a T r hra
    simp only [coalesceImpl, List.map_cons] at himpl
    cases hcv : converted x T a with
    | unk =>
      rw [hcv] at himpl
      cases himpl
      have hrk : ∃ t, r = .unk t := by
        unfold converted at hcv
        rw [hra] at hcv
        cases r <;> first | exact ⟨_, rfl⟩ | cases hcv
      obtain ⟨t, rfl⟩ := hrk
      refine ⟨[], a, l, .unk t, rfl, (fun p h => by cases h), ?_, hra, .inr ⟨rfl, rfl⟩⟩
      rintro (h | ⟨_, h⟩)
      · rw [← hnull] at h; cases h
      · rw [hra] at h; cases h
    | null =>
      rw [hcv] at himpl
      have hrn : r.isNull = true := by
        unfold converted at hcv
        rw [hra] at hcv
        cases r <;> first | rfl | cases hcv
      exact hrec himpl (.inl (hnull ▸ hrn))
    | val w =>
      rw [hcv] at himpl
      obtain ⟨h1, hn⟩ := converted_val hcv
      rw [hra] at h1
      cases h1
      simp only [Funcs.coalesce] at himpl
      split at himpl
      · next he =>
        refine hrec himpl (.inr ?_)
        unfold isEmpty at he
        split at he
        · rw [List.isEmpty_iff] at he; subst he; exact ⟨rfl, hra⟩
        · cases he
      · next he =>
        cases himpl
        refine ⟨[], a, l, _, rfl, (fun p h => by cases h), ?_, hra, .inl rfl⟩
        rintro (h | ⟨rfl, h⟩)
        · rw [← hnull, hn] at h; cases h
        · rw [hra] at h; cases h; exact he rfl

/-- Null and the empty string are passed. -/
example : call (Fn.coalesce.spec Demo.ext) [.null .str, Demo.s "", Demo.s "x", Demo.s "y"] = .ok (Demo.s "x") := rfl

/-- **C129** is wrong in general: if the tuple `["a"]` cannot be converted to the list of numbers that is announced, then it is skipped, though
it is neither null nor empty; the error of the conversion is lost.  While its element was unknown, it was the result, so that the result
changes from a list of one to a list of two (which violates C128, too). -/
theorem C129_violated (x : Ext) (hx : x.Ok) (s : Bytes) (n1 n2 : BF) (hu : x.unify [.tup [.str], .list .num] = some (.list .num))
    (c1 : x.conv (.tup [.unk .str]) (.list .num) = some (.list .num [.unk .num]))
    (c2 : x.conv (.tup [.str s]) (.list .num) = none) :
    ¬ Skipped x (.list .num) (.tup [.str s]) ∧
    call (Fn.coalesce.spec x) [.tup [.str s], .list .num [.num n1, .num n2]] = .ok (.list .num [.num n1, .num n2]) ∧
    call (Fn.coalesce.spec x) [.tup [.unk .str], .list .num [.num n1, .num n2]] = .ok (.list .num [.unk .num]) ∧
    BecomesAll [.tup [.unk .str], .list .num [.num n1, .num n2]] [.tup [.str s], .list .num [.num n1, .num n2]] ∧
    ¬ Becomes (.list .num [.unk .num]) (.list .num [.num n1, .num n2]) := by
  have hself : x.conv (.list .num [.num n1, .num n2]) (.list .num) = some (.list .num [.num n1, .num n2]) :=
    hx.self (.list .num [.num n1, .num n2])
  have hcall : ∀ (w : V) (l : List V), w.ty = .str →
      coalesceImpl x [.tup [w], .list .num [.num n1, .num n2]] (.list .num) = some (.list .num l) →
      call (Fn.coalesce.spec x) [.tup [w], .list .num [.num n1, .num n2]] = .ok (.list .num l) := by
    intro w l hw hi
    have h1 : returnType (Fn.coalesce.spec x) [.tup [w], .list .num [.num n1, .num n2]] = some (.list .num, false) := by
      show (x.unify [.tup [w.ty], .list .num]).map _ = _
      rw [hw, hu]; rfl
    unfold call
    rw [h1]
    dsimp only
    rw [show blocked (Fn.coalesce.spec x).params (Fn.coalesce.spec x).var [.tup [w], .list .num [.num n1, .num n2]] = false from rfl,
      show (Fn.coalesce.spec x).impl [.tup [w], .list .num [.num n1, .num n2]] (.list .num) = some (.list .num l) from hi]
    rfl
  refine ⟨?_, ?_, ?_, ⟨rfl, fun i v v' hv hv' => ?_⟩, ?_⟩
  · rintro (h | ⟨h, _⟩) <;> cases h
  · refine hcall (.str s) _ rfl ?_
    simp only [coalesceImpl, List.map_cons, converted, c2, hself, Funcs.coalesce, isEmpty]
    rfl
  · refine hcall (.unk .str) _ rfl ?_
    simp only [coalesceImpl, List.map_cons, converted, c1, Funcs.coalesce, isEmpty]
    rfl
  · match i, hv, hv' with
    | 0, rfl, rfl =>
      refine .tup rfl fun j w w' hw hw' => ?_
      match j, hw, hw' with
      | 0, rfl, rfl => exact .unk .str
    | 1, rfl, rfl => exact .refl _
  · intro h
    cases h with
    | list _ _ len _ => cases len

/-- `Demo.ext2` meets the hypotheses of the violations. -/
example : Demo.ext2.Ok ∧ Demo.ext2.unify [.num, .dyn] = some .num ∧ Demo.ext2.unify [.num, .str] = some .str ∧
    Demo.ext2.conv (Demo.n 5) .num = some (Demo.n 5) ∧ Demo.ext2.conv (Demo.n 5) .str = some (Demo.s "5") ∧
    Demo.ext2.conv (Demo.n 5) .dyn = some (Demo.n 5) ∧
    Demo.ext2.unify [.tup [.str], .list .num] = some (.list .num) ∧
    Demo.ext2.conv (.tup [.unk .str]) (.list .num) = some (.list .num [.unk .num]) ∧
    Demo.ext2.conv (.tup [Demo.s "a"]) (.list .num) = none := ⟨Demo.ok2, rfl, rfl, rfl, rfl, rfl, rfl, rfl, rfl⟩

/-! ## C130: errors are final -/

/-- Functions that take null for none of their first parameters. -/
def refusesNull : Fn → Bool
  | .length | .allTrue | .anyTrue | .index | .lookup | .matchkeys | .one | .sum | .transpose => true
  | _ => false

/-- **C130**: null is refused: if one of the arguments for the named parameters is null, the call is an error, or, if another argument has an
unknown type, gives an unknown value of unknown type; it gives no value. -/
theorem C130_null (x : Ext) (f : Fn) (hf : refusesNull f = true) (args : List V) (i : Nat) (v : V) (hi : i < (f.spec x).params.length)
    (hv : args[i]? = some v) (hn : v.isNull = true) :
    call (f.spec x) args = .err ∨ call (f.spec x) args = .ok (.unk .dyn) := by
  have hp : ∀ p ∈ (f.spec x).params, p.allowNull = false := by
    intro p hp
    cases f <;> first
      | (cases hf; done)
      | (simp only [Fn.spec, List.mem_cons, List.not_mem_nil, or_false] at hp
         first
           | (rcases hp with rfl | rfl | rfl <;> rfl)
           | (rcases hp with rfl | rfl <;> rfl)
           | (subst hp; rfl))
  have hc := checkArgs_null (var := (f.spec x).var) hp args ⟨i, v, hi, hv, hn⟩
  unfold call returnType
  by_cases ha : arity (f.spec x) args.length = true
  · rw [if_pos ha]
    cases hk : checkArgs (f.spec x).params (f.spec x).var args with
    | ok => exact absurd hk hc
    | err => exact .inl rfl
    | dyn => exact .inr rfl
  · rw [if_neg ha]; exact .inl rfl

example : call (Fn.length.spec Demo.ext) [.null (.list .str)] = .err ∧
    call (Fn.index.spec Demo.ext) [.unk .dyn, .null .str] = .ok (.unk .dyn) := ⟨rfl, rfl⟩

/-- **C130**, for arguments that are settled: if a call on arguments that are not wholly known is an error, then the call is an error however
the arguments turn out.  Settled: for `alltrue`, `anytrue`, `transpose` and `coalesce` the types of the arguments do not change, nor for
`lookup` the type of a map, nor for `matchkeys` the types and the search set. -/
theorem C130_final_partial (x : Ext) (hok : x.Ok) (hs : x.Stable) (hx : x.Final) (f : Fn) (args args' : List V)
    (h : BecomesAll args args') (hg : ∀ a ∈ args, Good a) (hg' : ∀ a ∈ args', Good a) (hse : Settled f args args')
    (hc : call (f.spec x) args = .err) : call (f.spec x) args' = .err :=
  call_final hok hx hs f h hg hg' hse hc

/-- `index` of a list that has neither of two known strings; of a list that may have it, it is unknown, not an error. -/
example : Demo.ext.Ok ∧ Demo.ext.Stable ∧ Demo.ext.Final ∧
    call (Fn.one.spec Demo.ext) [.list .str [Demo.us, Demo.us]] = .err ∧
    call (Fn.one.spec Demo.ext) [.list .str [Demo.s "a", Demo.s "b"]] = .err ∧
    BecomesAll [.list .str [Demo.us, Demo.us]] [.list .str [Demo.s "a", Demo.s "b"]] ∧
    call (Fn.index.spec Demo.ext) [.list .str [Demo.s "a", Demo.us], Demo.s "b"] = .ok (.unk .num) ∧
    call (Fn.index.spec Demo.ext) [.list .str [Demo.s "a", Demo.s "c"], Demo.s "b"] = .err := by
  refine ⟨Demo.ok, Demo.stable, Demo.final, rfl, rfl, ⟨rfl, fun i v v' hv hv' => ?_⟩, rfl, rfl⟩
  match i, hv, hv' with
  | 0, rfl, rfl =>
    refine .list (.refl _) (fun _ => rfl) rfl fun j w w' hw hw' => ?_
    match j, hw, hw' with
    | 0, rfl, rfl => exact .unk .str
    | 1, rfl, rfl => exact .unk .str

/-- **C130** is wrong in general: `alltrue` of a list of values of unknown type is an error, for that type is not the one of the parameter;
if the values turn out to be `true`, it is `true`. -/
theorem C130_violated (x : Ext) :
    call (Fn.allTrue.spec x) [.list .dyn [.unk .dyn]] = .err ∧
    call (Fn.allTrue.spec x) [.list .bool [.bool true]] = .ok (.bool true) ∧
    Becomes (.list .dyn [.unk .dyn]) (.list .bool [.bool true]) ∧ Good (.list .dyn [.unk .dyn]) ∧ Good (.list .bool [.bool true]) := by
  refine ⟨rfl, rfl, .list (.any _) (fun h => absurd (.unk _) (h _ List.mem_cons_self)) rfl fun i v v' hv hv' => ?_,
    .list (fun v hv => ?_) (fun v hv => ?_), .list (fun v hv => ?_) (fun v hv => ?_)⟩
  · match i, hv, hv' with
    | 0, rfl, rfl => exact .unk (.any _)
  · rw [List.mem_singleton.1 hv]; exact .unk _
  · rw [List.mem_singleton.1 hv]; rfl
  · rw [List.mem_singleton.1 hv]; exact .bool _
  · rw [List.mem_singleton.1 hv]; rfl

end Verif.Typed

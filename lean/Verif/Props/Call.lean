import Verif.Lemmas.Call
/-!
# Function calls in expressions: C80 to C83
-/
namespace Verif.Fn
open Verif.Hcl

/-! ## C80: a call means the same wherever it occurs -/

/-- Whatever value the code gives, it is the one that the expression denotes, for functions of either kind, as long as
`null` is not called. -/
theorem C80_sound {env : Env} {ref : Funcs} (hk : ∀ s, env.keyStr (.str s) = some s) {x : X} {v : Cty}
    (hc : CallsOnly (fun n => n ≠ b "null") x) (h : exprToCty env ref x = .ok v) : Den env (Means env.nfc ref) x v :=
  expr_sound hk x v hc h

/-- **C80, in part.**  An expression whose calls are at the top, in lists, in members of objects or in arguments of
calls has exactly the value that it denotes.  Missing: calls below operators, templates and conditionals, and in
keys (`C80_violated`). -/
theorem C80_partial {env : Env} {ref : Funcs} (hk : ∀ s, env.keyStr (.str s) = some s) {x : X} {v : Cty}
    (hc : CallsOnly (fun n => n ≠ b "null") x) (ht : Top ref.isNative x) :
    exprToCty env ref x = .ok v ↔ Den env (Means env.nfc ref) x v :=
  ⟨expr_sound hk x v hc, expr_complete hk x v ht⟩

/-- Below an operator every call fails, whatever the functions. -/
theorem C80_below {env : Env} {ref : Funcs} {o : Bytes} {args : List X} (h : ¬ CallFreeL args) :
    ∃ e, exprToCty env ref (.op o args) = .error e := by
  cases hr : exprToCty env ref (.op o args) with
  | error e => exact ⟨e, rfl⟩
  | ok v =>
    simp only [exprToCty] at hr
    have := value_none_free _ _ hr
    simp only [CallsOnly] at this
    exact absurd this h

/-- Upper case of one letter, as an example of a function. -/
def exUp : HclFn
  | [.str s] => some (.str (s.map fun c => if 97 ≤ c ∧ c ≤ 122 then c - 32 else c))
  | _ => none

/-- An example of an environment: a variable `x`, and `!` for strings. -/
def exEnv : Env where
  vars := [(b "x", .str (b "ab"))]
  sem := fun o vs => match vs with
    | [.str s] => if o = b "!" then some (.str (s ++ o)) else none
    | _ => none
  keyStr := fun v => match v with
    | .str s => some s
    | .bool true => some (b "true")
    | _ => none
  nfc := id

theorem exEnv_keyStr (s : Bytes) : exEnv.keyStr (.str s) = some s := rfl

/-- The example functions. -/
def exFuncs : Funcs := .hcl (some [(b "upper", exUp)])

/-- `[upper(upper(x) !), { k = upper("c") }]`. -/
def exX : X := .tuple [.call (b "upper") [.op (b "!") [.call (b "upper") [.var (b "x")]]],
  .object [(.var (b "k"), .call (b "upper") [.lit (.str (b "c"))])]]

example : Top exFuncs.isNative exX ∧ CallsOnly (fun n => n ≠ b "null") exX := by
  constructor
  · simp only [exX, exFuncs, Funcs.isNative, Top, TopL, TopO, TopP]
    refine ⟨⟨by decide, by simp⟩, ⟨⟨.name, by decide, by simp⟩, trivial⟩, trivial⟩
  · simp only [exX, CallsOnly, CallsOnlyL, CallsOnlyO, CallsOnlyP]
    decide
example : exprToCty exEnv exFuncs exX = .ok (.tuple [.str (b "AB!"), .object [(b "k", .str (b "C"))]]) := by
  rfl

/-- **C80 fails**: `upper(x) !` denotes a value, but it is an error, though `upper` is registered. -/
theorem C80_violated : ∃ (env : Env) (ref : Funcs) (x : X) (v : Cty), (∀ s, env.keyStr (.str s) = some s) ∧
    CallsOnly (fun n => n ≠ b "null") x ∧ Den env (Means env.nfc ref) x v ∧ exprToCty env ref x = .error .err := by
  refine ⟨exEnv, exFuncs, .op (b "!") [.call (b "upper") [.var (b "x")]], .str (b "AB!"), exEnv_keyStr, ?_, ?_, rfl⟩
  · simp only [CallsOnly, CallsOnlyL]; decide
  · exact .op (.cons (.call (.cons (.var rfl) .nil) ⟨_, exUp, rfl, rfl, rfl⟩) .nil) rfl

/-- **C80 fails for keys**: a key that is not a string, such as `(true) = 1`, panics, while `hclsyntax` converts it. -/
theorem C80_violated_key : ∃ (env : Env) (ref : Funcs) (x : X) (v : Cty), (∀ s, env.keyStr (.str s) = some s) ∧
    CallsOnly (fun _ => False) x ∧ Den env (Means env.nfc ref) x v ∧ exprToCty env ref x = .error .panic := by
  refine ⟨exEnv, exFuncs, .object [(.lit (.bool true), .lit (.num 1))], .object [(b "true", .num 1)], exEnv_keyStr, ?_, ?_, rfl⟩
  · simp only [CallsOnly, CallsOnlyO, CallsOnlyP]; decide
  · exact .object (.cons (.expr (by simp) .lit rfl) .lit .nil) (isObj_storeAll [(b "true", .num 1)])

/-- `null(…)` is null whatever its arguments, even if these have no value; below another call it is unknown. -/
theorem C80_violated_null {env : Env} {m : Option (GoMap Bytes HclFn)} (args : List X) :
    exprToCty env (.hcl m) (.call (b "null") args) = .ok .null ∧
    ∀ t n, m = some t → GoMap.get? t (b "null") = none → n ≠ b "null" →
      exprToCty env (.hcl m) (.call n [.call (b "null") args]) = .error .err := by
  refine ⟨by simp only [exprToCty, if_true], ?_⟩
  rintro t n rfl h hn
  simp only [exprToCty, if_neg hn, value, valueL]
  have hp := valueL_noPanic (env := env) (fs := some t) args
  cases hv : valueL env (some t) args with
  | error e =>
    cases e with
    | err => rfl
    | panic => exact absurd hv hp
  | ok vs => simp [Except.bind, callHcl, h]

/-! ## C81: Go functions -/

/-- The call of a Go function whose arguments are found gives exactly the value of the function on the native form of
the arguments, by the first result that is not an error, provided that the first error among the results is nil. -/
theorem C81_value {env : Env} {m : GoMap Bytes NativeFn} (hk : ∀ s, env.keyStr (.str s) = some s) {n : Bytes} {f : GoFn}
    (hn : n ≠ [] ∧ n ≠ b "null") (hf : GoMap.get? m n = some (.fn f)) {args : List X} {vs : List Cty}
    (hc : CallsOnlyL (fun n => n ≠ b "null") args) (ht : TopL true args) (ha : DenL env (Means env.nfc (.native m)) args vs)
    {v : Cty} : exprToCty env (.native m) (.call n args) = .ok v ↔ GoCalls env.nfc f vs v := by
  constructor
  · intro h
    have h1 := expr_sound hk (.call n args) v (by simp only [CallsOnly]; exact ⟨hn.2, hc⟩) h
    cases h1 with
    | call h2 h3 =>
      have e1 := exprL_complete (ref := .native m) hk args _ ht h2
      have e2 := exprL_complete (ref := .native m) hk args _ ht ha
      rw [e1, Except.ok.injEq] at e2
      subst e2
      obtain ⟨f', h4, _, h5⟩ := h3
      rw [hf] at h4; cases h4
      exact h5
  · intro h
    refine expr_complete (ref := .native m) hk (.call n args) v ?_ (.call ha ⟨f, hf, hn.1, h⟩)
    simp only [Top]
    exact ⟨hn.2, fun _ => ht⟩

/-- An error that the function returns is the outcome of the call, whatever else it returns. -/
theorem C81_error {nfc : Bytes → Bytes} {f : GoFn} {gs : List GV} {pre post : List OutV} {e : Bytes}
    (ha : List.Forall₂ (fun p x => p x = true) f.params gs) (hnil : GV.nil ∉ gs)
    (hr : f.run gs = some (pre ++ .error (some e) :: post)) (hp : ∀ o ∈ pre, ∃ w, o = .val w) :
    callGo nfc (.fn f) gs = .error .err := by
  have hacc : accepts f.params gs = true := accepts_iff.2 ⟨ha, fun g hg e => hnil (e ▸ hg)⟩
  simp only [callGo, ha.length_eq, ne_eq, not_true_eq_false, if_false, hacc, if_true, hr]
  unfold results
  cases hk : errorPos (pre ++ .error (some e) :: post) with
  | none =>
    obtain ⟨w, hw⟩ := errorPos_none hk (.error (some e)) (by simp)
    cases hw
  | some k =>
    obtain ⟨pre', e', post', h4, h5, h6, _, h7⟩ := errorPos_some hk
    rcases split_unique h4.symm h5 h6 hp with ⟨w, hw⟩ | h8
    · cases hw
    · simp only [h7, ← h8]

/-- **C81, in part.**  When the call panics: the entry is no function; an argument is null or cannot be assigned to its
parameter; the function itself panics; or its first error is of a type that has no nil.  In all other cases there is
a value or an error.  The full property says that the first and the second case are errors, too. -/
theorem C81_partial {nfc : Bytes → Bytes} {f : NativeFn} {gs : List GV} : callGo nfc f gs = .error .panic ↔
    f = .other ∨ ∃ g, f = .fn g ∧ g.params.length = gs.length ∧
      (GV.nil ∈ gs ∨ ¬ List.Forall₂ (fun p x => p x = true) g.params gs ∨ g.run gs = none ∨
        ∃ pre post, g.run gs = some (pre ++ .errorStruct :: post) ∧ ∀ o ∈ pre, ∃ w, o = .val w) := by
  cases f with
  | other => simp [callGo]
  | fn g =>
    have hg : ∀ Q : GoFn → Prop, (NativeFn.fn g = .other ∨ ∃ g', NativeFn.fn g = .fn g' ∧ Q g') ↔ Q g := by
      intro Q
      constructor
      · rintro (h | ⟨g', h, hq⟩)
        · cases h
        · cases h; exact hq
      · intro h; exact Or.inr ⟨g, rfl, h⟩
    rw [hg]
    simp only [callGo]
    by_cases hl : g.params.length = gs.length
    · rw [if_neg (by simpa using hl)]
      by_cases ha : accepts g.params gs = true
      · have ha' := accepts_iff.1 ha
        rw [if_pos ha]
        have h1 : GV.nil ∉ gs := fun h => ha'.2 _ h rfl
        cases hr : g.run gs with
        | none => simp [hl]
        | some outs =>
          simp only [results_panic, hl, true_and, h1, false_or, ha'.1, not_true_eq_false, Option.some.injEq, reduceCtorEq]
      · rw [if_neg ha]
        simp only [hl, true_and, true_iff]
        rw [accepts_iff] at ha
        by_cases hf : List.Forall₂ (fun p x => p x = true) g.params gs
        · refine Or.inl (Classical.byContradiction fun hn => ha ⟨hf, ?_⟩)
          rintro x hx rfl
          exact hn hx
        · exact Or.inr (Or.inl hf)
    · rw [if_pos (by simpa using hl)]
      simp [hl]

/-- A Go function of one string that returns its length and an error. -/
def exLen : GoFn where
  params := [fun v => match v with | .str _ => true | _ => false]
  run := fun vs => match vs with
    | [.str s] => some [.val (.int s.length), .error (if s.isEmpty then some (b "empty") else none)]
    | _ => none

/-- A Go function of one `interface{}` that returns nothing. -/
def exDrop : GoFn where
  params := [fun _ => true]
  run := fun _ => some []

/-- Both as functions given by the caller. -/
def exNative : GoMap Bytes NativeFn := [(b "len", .fn exLen), (b "drop", .fn exDrop)]

example : CallsOnlyL (fun n => n ≠ b "null") [X.var (b "x")] ∧ TopL true [X.var (b "x")] ∧
    DenL exEnv (Means exEnv.nfc (.native exNative)) [.var (b "x")] [.str (b "ab")] := by
  refine ⟨by simp only [CallsOnlyL, CallsOnly, and_self], by simp only [TopL, Top, and_self], .cons (.var rfl) .nil⟩
example : exprToCty exEnv (.native exNative) (.call (b "len") [.var (b "x")]) = .ok (.num 2) := rfl
example : exprToCty exEnv (.native exNative) (.call (b "len") [.lit (.str [])]) = .error .err := rfl
example : exprToCty exEnv (.native exNative) (.call (b "drop") [.call (b "drop") [.var (b "x")]]) = .ok (.object []) := rfl
example : exLen.run [.str []] = some ([.val (.int 0)] ++ .error (some (b "empty")) :: []) := rfl

/-- **C81 fails**: `len(true)` and even `drop(null)`, where any value is allowed, panic. -/
theorem C81_violated : exprToCty exEnv (.native exNative) (.call (b "len") [.lit (.bool true)]) = .error .panic ∧
    exprToCty exEnv (.native exNative) (.call (b "drop") [.lit .null]) = .error .panic := ⟨rfl, rfl⟩

/-- A name that is empty or not registered is an error, whatever the arguments (even if these panic). -/
theorem C81_unregistered {env : Env} {m : GoMap Bytes NativeFn} {n : Bytes} (hn : n ≠ b "null")
    (h : n = [] ∨ GoMap.get? m n = none) (args : List X) :
    exprToCty env (.native m) (.call n args) = .error .err := by
  simp only [exprToCty, if_neg hn, findFn]
  by_cases h0 : n = []
  · simp [h0, Except.bind]
  · simp [h0, h.resolve_left h0, ofOption, Except.bind]

example : GoMap.get? exNative (b "cut") = none ∧
    exprToCty exEnv (.native exNative) (.call (b "cut") [.call (b "len") [.lit (.bool true)]]) = .error .err := ⟨rfl, rfl⟩

/-- Without Go functions (none at all, those of cty, or an entry of some other type) no expression panics, unless a
key of an object is no string. -/
theorem C81_hcl {env : Env} {ref : Funcs} (hr : ∀ m, ref ≠ .native m) {x : X} (h : Top false x) :
    exprToCty env ref x ≠ .error .panic := expr_noPanic hr x h

example : Top false (.tuple [.call (b "f") [.lit .null], .var (b "x")]) ∧ (∀ m, Funcs.other ≠ .native m) ∧
    exprToCty exEnv .other (.tuple [.call (b "f") [.lit .null], .var (b "x")]) = .error .err := by
  refine ⟨?_, fun m h => (by cases h), rfl⟩
  simp only [Top, TopL]; decide

/-- However calls are nested, a panic comes from one of the functions called (`C81_partial` says when), not from looking it up, from evaluating its
arguments or from converting them. -/
theorem C81_nested {env : Env} {m : GoMap Bytes NativeFn} {x : X} (h : Top true x) (hp : exprToCty env (.native m) x = .error .panic) :
    PanicIn env m x := expr_panic x h hp

example : Top true (.tuple [.var (b "x"), .call (b "len") [.lit (.bool true)]]) ∧
    exprToCty exEnv (.native exNative) (.tuple [.var (b "x"), .call (b "len") [.lit (.bool true)]]) = .error .panic := by
  refine ⟨?_, rfl⟩
  simp only [Top, TopL]; decide

/-! ## C82: the functions that the caller registers -/

/-- **C82, in part.**  After `DefaultTreeFunctions` a name that is not built in has the function of the caller and a
name that is built in has the built-in function, in whatever order these are visited.  Missing: the caller's own
functions under built-in names (`C82_violated`). -/
theorem C82_partial {core order t : GoMap Bytes HclFn} (hn : (GoMap.keys core).Nodup) (hp : order.Perm core) :
    ∃ t', defaultFuncs order (.hcl (some t)) = .ok (.hcl (some t')) ∧
      (∀ n, n ∉ GoMap.keys core → GoMap.get? t' n = GoMap.get? t n) ∧
      (∀ n, n ∈ GoMap.keys core → GoMap.get? t' n = GoMap.get? core n) := by
  have hn' : (GoMap.keys order).Nodup := (hp.map Prod.fst).nodup_iff.2 hn
  refine ⟨_, rfl, ?_, ?_⟩
  · intro n h
    rw [get?_setAll n order t hn', get?_perm hp hn, GoMap.get?_eq_none.2 h]
    rfl
  · intro n h
    rw [get?_setAll n order t hn', get?_perm hp hn]
    obtain ⟨f, hf⟩ := Option.isSome_iff_exists.1 (GoMap.get?_isSome.2 h)
    rw [hf]; rfl

/-- A function of the caller whose name is not built in is the one that an expression calls. -/
theorem C82_called {env : Env} {core order t : GoMap Bytes HclFn} {ref : Funcs} (hn : (GoMap.keys core).Nodup)
    (hp : order.Perm core) (hd : defaultFuncs order (.hcl (some t)) = .ok ref) {n : Bytes} {f : HclFn}
    (hc : n ∉ GoMap.keys core) (hnull : n ≠ b "null") (hf : GoMap.get? t n = some f) {args : List Cty} {v : Cty} :
    exprToCty env ref (.call n (args.map .lit)) = .ok v ↔ f args = some v := by
  obtain ⟨t', h1, h2, _⟩ := C82_partial (t := t) hn hp
  rw [h1, Except.ok.injEq] at hd
  subst hd
  simp only [exprToCty, if_neg hnull, value, valueL_lits, Except.bind, callHcl, h2 n hc, hf, ofOption_ok]

-- Functions of Go are left as they are; without functions all built-in ones are there.
example (core : GoMap Bytes HclFn) (m : GoMap Bytes NativeFn) :
    defaultFuncs core (.native m) = .ok (.native m) ∧ defaultFuncs core .absent = .ok (.hcl (some core)) := ⟨rfl, rfl⟩

/-- Another `upper`, of the caller. -/
def exMine : HclFn := fun _ => some (.str (b "mine"))

example : (GoMap.keys [(b "upper", exUp), (b "id", exUp)]).Nodup ∧ b "mine" ∉ GoMap.keys [(b "upper", exUp), (b "id", exUp)] := by
  decide

/-- **C82 fails**: the caller's own `upper` is replaced by the built-in one, and a nil map of functions panics. -/
theorem C82_violated : ∃ (core t : GoMap Bytes HclFn) (n : Bytes) (args : List Cty) (ref : Funcs),
    (∃ f, GoMap.get? t n = some f ∧ f args = some (.str (b "mine"))) ∧
    defaultFuncs core (.hcl (some t)) = .ok ref ∧
    exprToCty exEnv ref (.call n (args.map .lit)) = .ok (.str (b "A")) ∧
    defaultFuncs core (.hcl none) = .error .panic :=
  ⟨[(b "upper", exUp)], [(b "upper", exMine)], b "upper", [.str (b "a")], _, ⟨exMine, rfl, rfl⟩, rfl, rfl, rfl⟩

/-! ## C83: the expression that replaces a value -/

/-- **C83, in part.**  Unless it is a null list or map, a value has an expression, and evaluating that expression in any
context gives the same data, in whatever order a map is visited. -/
theorem C83_partial {env : Env} {fs : Option (GoMap Bytes HclFn)} {ord : List (Bytes × Cty) → List (Bytes × Cty)}
    (hk : ∀ s, env.keyStr (.str s) = some s) (ho : ∀ m, (ord m).Perm m) {v : TV} (hs : v.Stored)
    (h1 : v ≠ .list none) (h2 : v ≠ .map none) :
    ∃ x, ctyToExpr ord v = .ok x ∧ value env fs x = .ok v.data := by
  cases v with
  | scalar c => exact ⟨_, rfl, rfl⟩
  | other c => exact ⟨_, rfl, rfl⟩
  | list l =>
    cases l with
    | none => exact absurd rfl h1
    | some l => exact ⟨_, rfl, by simp only [value, valueL_lits, Except.map, TV.data]⟩
  | map m =>
    cases m with
    | none => exact absurd rfl h2
    | some m =>
      refine ⟨_, rfl, ?_⟩
      simp only [value, valueO_lits hk, Except.map, TV.data, Except.ok.injEq, Cty.object.injEq]
      exact Det.foldl_insertK_perm Det.ltB_lin (ho m) hs

example : (TV.map (some [(b "a", .num 1), (b "b", .num 2)])).Stored := by
  simp only [TV.Stored]
  decide
example : (ctyToExpr List.reverse (.map (some [(b "a", .num 1), (b "b", .num 2)]))).bind (value exEnv none) =
    .ok (.object [(b "a", .num 1), (b "b", .num 2)]) := rfl

/-- **C83 fails**: a null list or a null map panics. -/
theorem C83_violated (ord : List (Bytes × Cty) → List (Bytes × Cty)) :
    ctyToExpr ord (.list none) = .error .panic ∧ ctyToExpr ord (.map none) = .error .panic := ⟨rfl, rfl⟩

end Verif.Fn

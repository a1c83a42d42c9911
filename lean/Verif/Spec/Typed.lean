import Verif.Model.Typed
/-!
# What types and unknown values promise

Independent of the functions of the model, except for the type of a value.
-/
namespace Verif.Typed

/-- `Fits g w`: the type `g` is one of the types that `w` leaves open; `w` is like `g` except for parts that can be any type. -/
inductive Fits : Ty → Ty → Prop
  | any (g : Ty) : Fits g .dyn
  | bool : Fits .bool .bool
  | num : Fits .num .num
  | str : Fits .str .str
  | typ : Fits .typ .typ
  | list {g w : Ty} : Fits g w → Fits (.list g) (.list w)
  | set {g w : Ty} : Fits g w → Fits (.set g) (.set w)
  | map {g w : Ty} : Fits g w → Fits (.map g) (.map w)
  | tup {gs ws : List Ty} (len : gs.length = ws.length)
      (each : ∀ (i : Nat) (g w : Ty), gs[i]? = some g → ws[i]? = some w → Fits g w) : Fits (.tup gs) (.tup ws)
  | obj {gs ws : List (Bytes × Ty)} (names : gs.map (·.1) = ws.map (·.1))
      (each : ∀ (i : Nat) (g w : Bytes × Ty), gs[i]? = some g → ws[i]? = some w → Fits g.2 w.2) : Fits (.obj gs) (.obj ws)

/-- The elements of every collection in the value have the element type of the collection. -/
inductive Good : V → Prop
  | unk (t : Ty) : Good (.unk t)
  | null (t : Ty) : Good (.null t)
  | bool (x : Bool) : Good (.bool x)
  | num (x : Funcs.BF) : Good (.num x)
  | str (s : Bytes) : Good (.str s)
  | typ (t : Ty) : Good (.typ t)
  | list {e : Ty} {l : List V} (inner : ∀ v ∈ l, Good v) (types : ∀ v ∈ l, v.ty = e) : Good (.list e l)
  | set {e : Ty} {l : List V} (inner : ∀ v ∈ l, Good v) (types : ∀ v ∈ l, v.ty = e) : Good (.set e l)
  | map {e : Ty} {m : List (Bytes × V)} (inner : ∀ p ∈ m, Good p.2) (types : ∀ p ∈ m, p.2.ty = e) : Good (.map e m)
  | tup {l : List V} (inner : ∀ v ∈ l, Good v) : Good (.tup l)
  | obj {m : List (Bytes × V)} (inner : ∀ p ∈ m, Good p.2) : Good (.obj m)

/-- Some part of the value is not known. -/
inductive Open : V → Prop
  | unk (t : Ty) : Open (.unk t)
  | list {e : Ty} {l : List V} {v : V} : v ∈ l → Open v → Open (.list e l)
  | set {e : Ty} {l : List V} {v : V} : v ∈ l → Open v → Open (.set e l)
  | map {e : Ty} {m : List (Bytes × V)} {p : Bytes × V} : p ∈ m → Open p.2 → Open (.map e m)
  | tup {l : List V} {v : V} : v ∈ l → Open v → Open (.tup l)
  | obj {m : List (Bytes × V)} {p : Bytes × V} : p ∈ m → Open p.2 → Open (.obj m)

/-- `Becomes v v'`: the value `v` can turn out to be `v'`.  What is unknown can be any value whose type fits; what is known stays.  The
element type of a collection can change only if some element is not known.  Elements of a set that are not known can turn out to be equal. -/
inductive Becomes : V → V → Prop
  | unk {t : Ty} {v : V} : Fits v.ty t → Becomes (.unk t) v
  | null (t : Ty) : Becomes (.null t) (.null t)
  | bool (x : Bool) : Becomes (.bool x) (.bool x)
  | num (x : Funcs.BF) : Becomes (.num x) (.num x)
  | str (s : Bytes) : Becomes (.str s) (.str s)
  | typ (t : Ty) : Becomes (.typ t) (.typ t)
  | list {e e' : Ty} {l l' : List V} (ty : Fits e' e) (same : (∀ v ∈ l, ¬ Open v) → e' = e) (len : l.length = l'.length)
      (each : ∀ (i : Nat) (v v' : V), l[i]? = some v → l'[i]? = some v' → Becomes v v') : Becomes (.list e l) (.list e' l')
  | set {e e' : Ty} {l l' l'' : List V} (ty : Fits e' e) (same : (∀ v ∈ l, ¬ Open v) → e' = e ∧ l' = l)
      (len : l.length = l''.length) (each : ∀ (i : Nat) (v v' : V), l[i]? = some v → l''[i]? = some v' → Becomes v v')
      (members : ∀ v, v ∈ l' ↔ v ∈ l'') (fewer : l'.length ≤ l''.length) : Becomes (.set e l) (.set e' l')
  | map {e e' : Ty} {m m' : List (Bytes × V)} (ty : Fits e' e) (same : (∀ p ∈ m, ¬ Open p.2) → e' = e)
      (names : m.map (·.1) = m'.map (·.1))
      (each : ∀ (i : Nat) (p p' : Bytes × V), m[i]? = some p → m'[i]? = some p' → Becomes p.2 p'.2) : Becomes (.map e m) (.map e' m')
  | tup {l l' : List V} (len : l.length = l'.length)
      (each : ∀ (i : Nat) (v v' : V), l[i]? = some v → l'[i]? = some v' → Becomes v v') : Becomes (.tup l) (.tup l')
  | obj {m m' : List (Bytes × V)} (names : m.map (·.1) = m'.map (·.1))
      (each : ∀ (i : Nat) (p p' : Bytes × V), m[i]? = some p → m'[i]? = some p' → Becomes p.2 p'.2) : Becomes (.obj m) (.obj m')

/-- `Becomes` for lists of arguments. -/
def BecomesAll (l l' : List V) : Prop :=
  l.length = l'.length ∧ ∀ (i : Nat) (v v' : V), l[i]? = some v → l'[i]? = some v' → Becomes v v'

/-- What is assumed of `convert.Convert`: the result has the type that was asked for, it is null exactly for null, and nothing happens to a
value that has the type already. -/
structure Ext.Ok (x : Ext) : Prop where
  good : ∀ v t r, Good v → x.conv v t = some r → Good r
  fits : ∀ v t r, Good v → x.conv v t = some r → Fits r.ty t
  null : ∀ v t r, x.conv v t = some r → r.isNull = v.isNull
  self : ∀ v, x.conv v v.ty = some v

/-- What is assumed of `convert.Convert` and `stdlib.Equal` on values that are not wholly known: what they say stays true. -/
structure Ext.Stable (x : Ext) : Prop where
  conv : ∀ v v' t r r', Good v → Good v' → Becomes v v' → x.conv v t = some r → x.conv v' t = some r' → Becomes r r'
  equal : ∀ a a' c c' r, Becomes a a' → Becomes c c' → x.equal a c = some (.bool r) → x.equal a' c' = some (.bool r)

/-- The functions whose results are never null. -/
def neverNull : Fn → Bool
  | .lookup | .one | .to _ => false
  | _ => true

/-- What is needed, besides, for the result of a function to stay right; `T` is the announced type, `T'` the one announced later. -/
def Steady (x : Ext) (f : Fn) (T T' : Ty) (args args' : List V) : Prop :=
  match f with
  | .coalesce => T' = T ∧ (∀ a ∈ args, x.conv a T ≠ none) ∧ ∀ a ∈ args', x.conv a T ≠ none
  | .lookup => ∀ m m', args[0]? = some m → args'[0]? = some m' → (∃ e, m.ty = .map e) → m'.ty = m.ty
  | .matchkeys => args'.map V.ty = args.map V.ty ∧ ∀ s, args[2]? = some s → ¬ Open s
  | .typ => args'.map V.ty = args.map V.ty
  | _ => True

/-- What is assumed for errors to be final: a conversion that fails, a comparison that fails, types that cannot be unified or converted stay so
when more is known; what is wholly known is so after a conversion; a comparison gives a boolean, known or not. -/
structure Ext.Final (x : Ext) : Prop where
  conv : ∀ v v' t, Good v → Good v' → Becomes v v' → x.conv v t = none → x.conv v' t = none
  whole : ∀ v t r, ¬ Open v → x.conv v t = some r → ¬ Open r
  equal : ∀ a a' c c', Becomes a a' → Becomes c c' → x.equal a c = none → x.equal a' c' = none
  bool : ∀ a c r, x.equal a c = some r → (∃ y, r = .bool y) ∨ ∃ t, r = .unk t
  unify : ∀ ts ts' : List Ty, ts.length = ts'.length → (∀ (i : Nat) (t t' : Ty), ts[i]? = some t → ts'[i]? = some t' → Fits t' t) →
    x.unify ts = none → x.unify ts' = none
  can : ∀ g g' w, Fits g' g → (g' = w ∨ x.canConv g' w = true) → (g = w ∨ x.canConv g w = true)

/-- What is needed, besides, for an error of a function to be final. -/
def Settled (f : Fn) (args args' : List V) : Prop :=
  match f with
  | .allTrue | .anyTrue | .transpose | .coalesce => args'.map V.ty = args.map V.ty
  | .lookup => ∀ m m', args[0]? = some m → args'[0]? = some m' → (∃ e, m.ty = .map e) → m'.ty = m.ty
  | .matchkeys => args'.map V.ty = args.map V.ty ∧ ∀ s, args[2]? = some s → ¬ Open s
  | _ => True

end Verif.Typed

import Verif.Model.Det
/-!
# What `JsonUnmarshal` should do

Small definitions used to state the properties of `det`.
-/
namespace Verif.Det

/-- The JSON name of a field: what its tag has before the first comma, or the Go name if that is nothing. -/
inductive JsonName (f : Fld) : Bytes → Prop where
  | tag {k} : k ≠ [] → 44 ∉ k → f.tag = k → JsonName f k
  | options {k opts} : k ≠ [] → 44 ∉ k → f.tag = k ++ 44 :: opts → JsonName f k
  | untagged : f.tag = [] → JsonName f f.name
  | unnamed {opts} : f.tag = 44 :: opts → JsonName f f.name

/-- A key of a JSON object belongs to the `i`-th field: it is the first with that name, or else the first whose name
differs only in case. -/
def BelongsTo (ext : Ext) (fs : List Fld) (key : Bytes) (i : Nat) : Prop :=
  (∃ f, fs[i]? = some f ∧ JsonName f key ∧ ∀ j g, j < i → fs[j]? = some g → ¬ JsonName g key) ∨
    ((∀ g ∈ fs, ¬ JsonName g key) ∧ ∃ f k, fs[i]? = some f ∧ JsonName f k ∧ ext.fold k = ext.fold key ∧
      ∀ j g k', j < i → fs[j]? = some g → JsonName g k' → ext.fold k' ≠ ext.fold key)

open Classical in
/-- The values a JSON object gives to the `i`-th field, in the order of the document. -/
noncomputable def valuesOf (ext : Ext) (fs : List Fld) (i : Nat) (m : List (Bytes × J)) : List J :=
  (m.filter fun e => decide (BelongsTo ext fs e.1 i)).map Prod.snd

/-- The value of a key of a JSON object: the last one counts. -/
def lastOf {α : Type} (o : List (Bytes × α)) (key : Bytes) : Option α :=
  ((o.filter fun e => e.1 = key).getLast?).map Prod.snd

/-- `key` is chosen by name, or else the entry with the lexicographically smallest key. -/
def ClassFor {α : Type} (specs : List (Bytes × α)) (key : Bytes) (s : α) : Prop :=
  GoMap.get? specs key = some s ∨
    (key ∉ specs.map Prod.fst ∧ ∃ k0, (k0, s) ∈ specs ∧ ∀ e ∈ specs, k0 ≤ e.1)

/-- `v` is a pointer to an instance of the class of `s` that holds what decoding `j` alone
into a fresh instance gives, with the given registry. -/
def DecodedAlone (env : Env) (ext : Ext) (fuel : Nat) (reg : Reg) (s : Cls) (j : J) (v : Val) : Prop :=
  ∃ c content path fields, GoMap.get? reg s.name = some (.ptr c content) ∧
    decode env ext fuel reg.toRef path ⟨c, fresh env ext c⟩ s (some j) = .ret ⟨c, fields⟩ false ∧
    v = .ref c fields

/-- One step of reachability between types: what a value of the type can hold. -/
inductive Step (env : Env) (impls : GoMap Bytes (List (Option Ty))) : Ty → Ty → Prop where
  | ptr {t e} : env.resolve t = .ptr e → Step env impls t e
  | slice {t e} : env.resolve t = .slice e → Step env impls t e
  | map {t k e} : env.resolve t = .map k e → Step env impls t e
  | field {t c f} : env.resolve t = .struct c → f ∈ (env.struct c).fields → Step env impls t f.ty
  | impl {t i l u} : env.resolve t = .iface i → GoMap.get? impls (env.iface i).name = some l →
      some u ∈ l → Step env impls t u

/-- Reachability between types. -/
inductive Reach (env : Env) (impls : GoMap Bytes (List (Option Ty))) : Ty → Ty → Prop where
  | refl {t} : Reach env impls t t
  | step {t u v} : Reach env impls t u → Step env impls u v → Reach env impls t v

/-- A step that does not go through the fields of a struct. -/
def StepNS (env : Env) (impls : GoMap Bytes (List (Option Ty))) (t u : Ty) : Prop :=
  Step env impls t u ∧ ∀ c, env.resolve t ≠ .struct c

/-- A type that contains itself without a struct in between. -/
def Loop (env : Env) (impls : GoMap Bytes (List (Option Ty))) (t : Ty) : Prop :=
  Relation.TransGen (StepNS env impls) t t

/-- The names under which a struct type is registered. -/
def IsNameOf (env : Env) (n : Bytes) (c : Nat) : Prop :=
  (env.struct c).name ≠ [] ∧
    (n = (env.struct c).name ∨ (env.struct c).pkg ≠ [] ∧ n = (env.struct c).pkg ++ b "." ++ (env.struct c).name)

/-- The assumptions under which discovery is complete: every struct reachable from the root has
a name, no two share one, and there is no pointer to a pointer. -/
structure Plain (env : Env) (impls : GoMap Bytes (List (Option Ty))) (root : Ty) : Prop where
  named : ∀ u c, Reach env impls root u → env.resolve u = .struct c → (env.struct c).name ≠ []
  unique : ∀ u c u' c' n, Reach env impls root u → env.resolve u = .struct c →
    Reach env impls root u' → env.resolve u' = .struct c' → IsNameOf env n c → IsNameOf env n c' → c = c'
  ptr : ∀ u e e', Reach env impls root u → env.resolve u = .ptr e → env.resolve e ≠ .ptr e'

/-! ## Fields and variables -/

/-- Whether a variable of type `t` can hold a pointer to a struct `c`. -/
inductive Holds (env : Env) (t : Ty) (c : Nat) : Prop where
  | ptr : env.resolve t = .ptr (.struct c) → Holds env t c
  | iface {i} : env.resolve t = .iface i → (env.iface i).impl c = true → Holds env t c

/-- The fields that take part: exported, not excluded by the tag `-` (or a last option `-`), those of
an untagged embedded struct in place of the struct. -/
inductive Exported : List Fld → Fld → Prop where
  | own {fs n tag ty e} : Fld.mk n true tag ty e ∈ fs → tag ≠ b "-" → ¬ b ",-" <:+ tag →
      (tag ≠ [] ∨ e = none) → Exported fs (.mk n true tag ty e)
  | embedded {fs n ty deep f} : Fld.mk n true [] ty (some deep) ∈ fs → Exported deep f → Exported fs f

/-! ## Specified values at every depth -/

/-- The specifications directly inside a field specification. -/
def CVal.subs : CVal → List Cls
  | .none => []
  | .single s => [s]
  | .list l => l
  | .map m => m.map Prod.snd
  | .map2 m => m.flatMap fun e => e.2.map Prod.snd

/-- The specifications directly inside a class specification. -/
def Cls.subs (s : Cls) : List Cls := s.fields.flatMap fun e => e.2.subs

/-- The class for a pair of keys: by name in the map chosen by the first key, else that of the
smallest inner key of the smallest outer key. -/
def Class2For (specs : List (Bytes × List (Bytes × Cls))) (key0 key1 : Bytes) (s : Cls) : Prop :=
  ∃ inner, ClassFor specs key0 inner ∧
    (GoMap.get? inner key1 = some s ∨
      key1 ∉ inner.map Prod.fst ∧ ∃ k0 m0 k1, (k0, m0) ∈ specs ∧ (∀ e ∈ specs, k0 ≤ e.1) ∧
        (k1, s) ∈ m0 ∧ ∀ e ∈ m0, k1 ≤ e.1)

/-- `v` is a pointer, allowed in a variable of type `t`, to an instance that is right for `s`. -/
def ElemOk (env : Env) (Q : Cls → Nat → List (Bytes × Val) → Prop) (t : Ty) (s : Cls) (v : Val) : Prop :=
  ∃ c fs, v = .ref c fs ∧ Holds env t c ∧ Q s c fs

/-- The value of a field of type `t` is right for the specification of the field. -/
def FieldOk (env : Env) (Q : Cls → Nat → List (Bytes × Val) → Prop) (t : Ty) (ov : Option Val) : CVal → Prop
  | .none => True
  | .single s => ∃ v, ov = some v ∧
      (ElemOk env Q t s v ∨ ∃ c fs, v = .inst c fs ∧ env.resolve t = .struct c ∧ Q s c fs)
  | .list specs =>
      (∃ et vs, env.resolve t = .slice et ∧ ov = some (.slice vs) ∧ ∀ k v, vs[k]? = some v →
        ∃ s, (specs[k]? = some s ∨ specs.length ≤ k ∧ specs[0]? = some s) ∧ ElemOk env Q et s v) ∨
      (∃ kt et m, env.resolve t = .map kt et ∧ ov = some (.map m) ∧ ∀ key v, GoMap.get? m key = some v →
        kt = .str ∧ ∃ s ∈ specs, ElemOk env Q et s v)
  | .map specs => ∃ kt et m, env.resolve t = .map kt et ∧ ov = some (.map m) ∧
      ∀ key v, GoMap.get? m key = some v → kt = .str ∧ ∃ s, ClassFor specs key s ∧ ElemOk env Q et s v
  | .map2 specs => ∃ kt et m, env.resolve t = .map kt et ∧ ov = some (.map2 m) ∧
      ∀ key v, GoMap.get? m key = some v → kt = .str2 ∧ ∃ s, Class2For specs key.1 key.2 s ∧ ElemOk env Q et s v

/-- Down to depth `n`: the specified fields of the struct `c` with these field values hold values
that are allowed there, of classes that are allowed by `P` for the class name in the
specification. -/
def DeepOk (env : Env) (P : Bytes → Nat → Prop) : Nat → Cls → Nat → List (Bytes × Val) → Prop
  | 0, _, _, _ => True
  | n + 1, s, c, fs => ∀ f ∈ loopFields (env.struct c).fields, ∀ sv, GoMap.get? s.fields f.name = some sv →
      FieldOk env (fun s' c' fs' => P s'.name c' ∧ DeepOk env P n s' c' fs') f.ty (GoMap.get? fs f.name) sv

/-- Where the type for a class name may come from: the template that `ref` gives for it; or, if
there is none, a struct type of that name reachable from the target type or from the type of some
template. -/
def Origin (env : Env) (ref : Ref) (root : Nat) (name : Bytes) (c : Nat) : Prop :=
  (∃ content, GoMap.get? ref name = some (.tmpl (.ptr c content))) ∨
  ((∀ t, GoMap.get? ref name ≠ some (.tmpl t)) ∧ IsNameOf env name c ∧
    ∃ r u, (r = root ∨ ∃ k content, GoMap.get? ref k = some (.tmpl (.ptr r content))) ∧
      Reach env (implementations ref) (.ptr (.struct r)) u ∧ env.resolve u = .struct c)

/-- The specification fits the types down to depth `n`: for every class allowed by `P`. -/
def FitsN (env : Env) (ext : Ext) (P : Bytes → Nat → Prop) : Nat → Cls → Nat → Prop
  | 0, _, _ => True
  | n + 1, s, c => s.fields = [] ∨
      (((loopFields (env.struct c).fields).map Fld.name).Nodup ∧
        ext.structOf (loopFields (env.struct c).fields) = true ∧
        ∀ f ∈ loopFields (env.struct c).fields, ∀ sv, GoMap.get? s.fields f.name = some sv →
          match sv with
          | .none => True
          | .single s' => ∀ c', P s'.name c' →
              (Holds env f.ty c' ∨ env.resolve f.ty = .struct c') ∧ FitsN env ext P n s' c'
          | .list l => ∃ et, (env.resolve f.ty = .slice et ∨ env.resolve f.ty = .map .str et) ∧
              ∀ s' ∈ l, ∀ c', P s'.name c' → Holds env et c' ∧ FitsN env ext P n s' c'
          | .map m => ∃ et, env.resolve f.ty = .map .str et ∧
              ∀ s' ∈ m.map Prod.snd, ∀ c', P s'.name c' → Holds env et c' ∧ FitsN env ext P n s' c'
          | .map2 m => ∃ et, env.resolve f.ty = .map .str2 et ∧
              ∀ s' ∈ m.flatMap (fun e => e.2.map Prod.snd), ∀ c', P s'.name c' →
                Holds env et c' ∧ FitsN env ext P n s' c')

/-- Down to depth `n`, no field of map type is specified by a list of classes. -/
def NoListOnMap (env : Env) (P : Bytes → Nat → Prop) : Nat → Cls → Nat → Prop
  | 0, _, _ => True
  | n + 1, s, c => ∀ f ∈ loopFields (env.struct c).fields, ∀ sv, GoMap.get? s.fields f.name = some sv →
      (∀ l kt et, sv = .list l → env.resolve f.ty ≠ .map kt et) ∧
      ∀ s' ∈ sv.subs, ∀ c', P s'.name c' → NoListOnMap env P n s' c'

/-- The same `ref` up to the content of the templates and the order of the entries. -/
def SameTypes (ref ref' : Ref) : Prop :=
  ∀ k, match GoMap.get? ref k, GoMap.get? ref' k with
    | none, none => True
    | some (.impls l), some (.impls l') => l = l'
    | some (.tmpl .nil), some (.tmpl .nil) => True
    | some (.tmpl .bad), some (.tmpl .bad) => True
    | some (.tmpl (.ptr c _)), some (.tmpl (.ptr c' _)) => c = c'
    | _, _ => False

end Verif.Det

import Verif.Lemmas.DetPanic
set_option linter.unusedSimpArgs false
/-! The result of `JsonUnmarshal` does not depend on the iteration orders of maps, nor on the
content of the templates. -/
namespace Verif.Det

/-! ## Iteration orders -/

/-- The value of a successful outcome. -/
def Out.opt {α : Type} : Out α → Option α
  | .ok a => some a
  | _ => none

theorem Out.opt_bind {α β : Type} (x : Out α) (f : α → Out β) : (x.bind f).opt = x.opt.bind fun a => (f a).opt := by
  cases x <;> rfl

theorem Out.opt_eq {α : Type} {x : Out α} {a : α} : x.opt = some a ↔ x = .ok a := by
  cases x <;> simp [Out.opt]

section
variable {env : Env} {ord ord' : List Bytes → List Bytes → List Bytes}
variable {el el' : List Bytes → Cls → Doc → Out Inst}

/-- What is stored for one key. -/
def keyVal (env : Env) (el : List Bytes → Cls → Doc → Out Inst) (et : Ty) (p : List Bytes) (s : Cls) (d : Doc)
    (good : Bool) : Option Val :=
  (el p s d).opt.bind fun i => (store env et i).opt.bind fun v => if good then some v else none

theorem keyVal_congr {et p p' s d good} (h : (el p s d).opt = (el' p' s d).opt) :
    keyVal env el et p s d good = keyVal env el' et p' s d good := by
  simp [keyVal, h]

theorem mapLoop_opt {path kt et specs first raw} (keys acc) :
    (mapLoop env el path kt et specs first raw keys acc).opt
      = keys.foldl (fun o k => o.bind fun acc =>
          (keyVal env el et (path ++ [k]) ((GoMap.get? specs k).getD first) (GoMap.get? raw k) (kt = .str)).bind fun v =>
            some (insertK ltB k v acc)) (some acc) := by
  have hnone : ∀ (l : List Bytes) (g : Bytes → List (Bytes × Val) → Option (List (Bytes × Val))),
      l.foldl (fun o k => o.bind (g k)) none = none := by
    intro l g; induction l with
    | nil => rfl
    | cons a l ih => simpa using ih
  induction keys generalizing acc with
  | nil => rfl
  | cons k ks ih =>
    simp only [mapLoop, Out.opt_bind, List.foldl_cons, Option.bind_some, keyVal]
    cases h1 : (el (path ++ [k]) ((GoMap.get? specs k).getD first) (GoMap.get? raw k)).opt with
    | none => simp only [Option.bind_none]; exact (hnone ks _).symm
    | some i =>
      simp only [Option.bind_some]
      cases h2 : (store env et i).opt with
      | none => simp only [Option.bind_none]; exact (hnone ks _).symm
      | some v =>
        simp only [Option.bind_some]
        by_cases hk : kt = .str
        · simp only [hk, ne_eq, not_true_eq_false, if_false, decide_true, if_true, Option.bind_some]
          have := ih (insertK ltB k v acc)
          rw [hk] at this
          rw [this]; simp [keyVal]
        · simp only [hk, ne_eq, not_false_eq_true, if_true, decide_false, Bool.false_eq_true, if_false,
            Option.bind_none, Out.opt]
          exact (hnone ks _).symm

theorem mapLoop_agree {path path' kt et specs first raw}
    (h : ∀ s ∈ specs.map Prod.snd, ∀ p p' d, (el p s d).opt = (el' p' s d).opt)
    (hf : first ∈ specs.map Prod.snd) {keys keys' : List Bytes} (hp : keys.Perm keys') (acc) :
    (mapLoop env el path kt et specs first raw keys acc).opt
      = (mapLoop env el' path' kt et specs first raw keys' acc).opt := by
  rw [mapLoop_opt, mapLoop_opt]
  have e : (fun k => keyVal env el et (path ++ [k]) ((GoMap.get? specs k).getD first) (GoMap.get? raw k) (kt = .str))
      = fun k => keyVal env el' et (path' ++ [k]) ((GoMap.get? specs k).getD first) (GoMap.get? raw k) (kt = .str) := by
    funext k
    exact keyVal_congr (h _ (get?_subs hf) _ _ _)
  have e' : ∀ k, keyVal env el et (path ++ [k]) ((GoMap.get? specs k).getD first) (GoMap.get? raw k) (kt = .str)
      = keyVal env el' et (path' ++ [k]) ((GoMap.get? specs k).getD first) (GoMap.get? raw k) (kt = .str) :=
    fun k => congrFun e k
  simp only [e']
  refine hp.foldl_eq' (fun x _ y _ z => ?_) _
  cases z with
  | none => rfl
  | some z =>
    simp only [Option.bind_some]
    by_cases hxy : x = y
    · subst hxy; rfl
    · cases keyVal env el' et (path' ++ [x]) ((GoMap.get? specs x).getD first) (GoMap.get? raw x) (kt = .str) <;>
        cases keyVal env el' et (path' ++ [y]) ((GoMap.get? specs y).getD first) (GoMap.get? raw y) (kt = .str) <;>
        simp only [Option.bind_some, Option.bind_none, Option.some.injEq]
      exact insertK_comm ltB_lin (Ne.symm hxy) _ _ _

theorem sliceLoop_agree {path path' et} {specs : List Cls} {first : Cls}
    (h : ∀ s ∈ specs, ∀ p p' d, (el p s d).opt = (el' p' s d).opt)
    (hf : first ∈ specs) (n js) :
    (sliceLoop env el path et specs first n js).opt = (sliceLoop env el' path' et specs first n js).opt := by
  induction js generalizing n with
  | nil => rfl
  | cons k ks ih =>
    simp only [sliceLoop, Out.opt_bind]
    have : (specs[n]?).getD first ∈ specs := by
      cases h : specs[n]? with
      | none => simpa using hf
      | some v => exact List.mem_of_getElem? h
    rw [h _ this _ (path' ++ [idxPath n])]
    simp only [ih]

theorem perm_flatMap_left {α β : Type} (l : List α) {f g : α → List β} (h : ∀ a, (f a).Perm (g a)) :
    (l.flatMap f).Perm (l.flatMap g) := by
  induction l with
  | nil => simp
  | cons a l ih => simp only [List.flatMap_cons]; exact (h a).append ih

/-- One pair of keys of a two-label map. -/
def pairStep (env : Env) (el : List Bytes → Cls → Doc → Out Inst) (et : Ty) (kt : KeyTy) (path : List Bytes)
    (specs : List (Bytes × List (Bytes × Cls))) (firstMap : List (Bytes × Cls)) (first : Cls)
    (raw : GoMap Bytes (GoMap Bytes J)) (o : Option (List ((Bytes × Bytes) × Val))) (k : Bytes × Bytes) :
    Option (List ((Bytes × Bytes) × Val)) :=
  o.bind fun acc =>
    (keyVal env el et (path ++ [k.1] ++ [k.2]) ((GoMap.get? ((GoMap.get? specs k.1).getD firstMap) k.2).getD first)
      (GoMap.get? ((GoMap.get? raw k.1).getD []) k.2) (kt = .str2)).bind fun v => some (insertK ltB2 k v acc)

theorem pairStep_none {et kt path specs firstMap first raw} (l : List (Bytes × Bytes)) :
    l.foldl (pairStep env el et kt path specs firstMap first raw) none = none := by
  induction l with
  | nil => rfl
  | cons a l ih => simpa [pairStep] using ih

theorem map2Inner_opt {et kt path specs firstMap first raw} (key0 : Bytes) (keys acc) :
    (map2Inner env el (path ++ [key0]) kt et ((GoMap.get? specs key0).getD firstMap) first key0
        ((GoMap.get? raw key0).getD []) keys acc).opt
      = (keys.map fun k => (key0, k)).foldl (pairStep env el et kt path specs firstMap first raw) (some acc) := by
  induction keys generalizing acc with
  | nil => rfl
  | cons k ks ih =>
    simp only [map2Inner, Out.opt_bind, List.map_cons, List.foldl_cons]
    have hs : pairStep env el et kt path specs firstMap first raw (some acc) (key0, k)
        = (keyVal env el et (path ++ [key0] ++ [k]) ((GoMap.get? ((GoMap.get? specs key0).getD firstMap) k).getD first)
      (GoMap.get? ((GoMap.get? raw key0).getD []) k) (kt = .str2)).bind fun v => some (insertK ltB2 (key0, k) v acc) := rfl
    rw [hs]
    simp only [keyVal]
    cases h1 : (el (path ++ [key0] ++ [k]) ((GoMap.get? ((GoMap.get? specs key0).getD firstMap) k).getD first)
        (GoMap.get? ((GoMap.get? raw key0).getD []) k)).opt with
    | none => simp only [Option.bind_none]; exact (pairStep_none _).symm
    | some i =>
      simp only [Option.bind_some]
      cases h2 : (store env et i).opt with
      | none => simp only [Option.bind_none]; exact (pairStep_none _).symm
      | some v =>
        simp only [Option.bind_some]
        by_cases hk : kt = .str2
        · simp only [hk, ne_eq, not_true_eq_false, if_false, decide_true, if_true, Option.bind_some]
          have := ih (insertK ltB2 (key0, k) v acc)
          rw [hk] at this
          rw [this]
        · simp only [hk, ne_eq, not_false_eq_true, if_true, decide_false, Bool.false_eq_true, if_false,
            Option.bind_none, Out.opt]
          exact (pairStep_none _).symm

theorem map2Outer_opt {et kt path specs firstMap first raw} (keys acc) :
    (map2Outer env ord el path kt et specs firstMap first raw keys acc).opt
      = (keys.flatMap fun k0 => (ord (path ++ [k0]) ((GoMap.get? raw k0).getD []).keys).map fun k => (k0, k)).foldl
          (pairStep env el et kt path specs firstMap first raw) (some acc) := by
  induction keys generalizing acc with
  | nil => rfl
  | cons k ks ih =>
    simp only [map2Outer, Out.opt_bind, List.flatMap_cons, List.foldl_append, map2Inner_opt]
    cases ((ord (path ++ [k]) ((GoMap.get? raw k).getD []).keys).map fun k1 => (k, k1)).foldl
        (pairStep env el et kt path specs firstMap first raw) (some acc) with
    | none => simp only [Option.bind_none]; exact (pairStep_none _).symm
    | some acc1 => exact ih acc1

theorem map2Outer_agree {path path' kt et raw} {specs : List (Bytes × List (Bytes × Cls))}
    {firstMap : List (Bytes × Cls)} {first : Cls}
    (h : ∀ s ∈ specs.flatMap (fun e => e.2.map Prod.snd), ∀ p p' d, (el p s d).opt = (el' p' s d).opt)
    (hm : ∃ k, (k, firstMap) ∈ specs) (hf : first ∈ firstMap.map Prod.snd)
    (hord : ∀ p ks, (ord p ks).Perm ks) (hord' : ∀ p ks, (ord' p ks).Perm ks)
    {keys keys' : List Bytes} (hp : keys.Perm keys') (acc) :
    (map2Outer env ord el path kt et specs firstMap first raw keys acc).opt
      = (map2Outer env ord' el' path' kt et specs firstMap first raw keys' acc).opt := by
  rw [map2Outer_opt, map2Outer_opt]
  have hin : ∀ k m, (k, m) ∈ specs → ∀ s ∈ m.map Prod.snd, ∀ p p' d, (el p s d).opt = (el' p' s d).opt :=
    fun k m hkm s hs => h s (List.mem_flatMap.2 ⟨_, hkm, hs⟩)
  obtain ⟨k0, hk0⟩ := hm
  have e : pairStep env el et kt path specs firstMap first raw
      = pairStep env el' et kt path' specs firstMap first raw := by
    funext o k
    cases o with
    | none => rfl
    | some acc =>
    simp only [pairStep, Option.bind_some]
    rw [keyVal_congr (el' := el') (p' := path' ++ [k.1] ++ [k.2])]
    have hi : ∀ s ∈ ((GoMap.get? specs k.1).getD firstMap).map Prod.snd,
        ∀ p p' d, (el p s d).opt = (el' p' s d).opt := by
      cases hk : GoMap.get? specs k.1 with
      | none => exact hin k0 _ hk0
      | some v => exact hin k.1 _ (GoMap.get?_mem hk)
    cases hk : GoMap.get? ((GoMap.get? specs k.1).getD firstMap) k.2 with
    | none => exact hin k0 _ hk0 _ hf _ _ _
    | some v => exact hi v (List.mem_map.2 ⟨_, GoMap.get?_mem hk, rfl⟩) _ _ _
  rw [e]
  have hperm : (keys.flatMap fun k0 => (ord (path ++ [k0]) ((GoMap.get? raw k0).getD []).keys).map fun k => (k0, k)).Perm
      (keys'.flatMap fun k0 => (ord' (path' ++ [k0]) ((GoMap.get? raw k0).getD []).keys).map fun k => (k0, k)) := by
    refine (hp.flatMap_right _).trans ?_
    exact perm_flatMap_left _ fun a => ((hord _ _).trans (hord' _ _).symm).map _
  refine hperm.foldl_eq' (fun x _ y _ z => ?_) _
  cases z with
  | none => rfl
  | some z =>
    by_cases hxy : x = y
    · subst hxy; rfl
    · simp only [pairStep, Option.bind_some]
      cases keyVal env el' et (path' ++ [x.1] ++ [x.2])
            ((GoMap.get? ((GoMap.get? specs x.1).getD firstMap) x.2).getD first)
            (GoMap.get? ((GoMap.get? raw x.1).getD []) x.2) (kt = .str2) <;>
        cases keyVal env el' et (path' ++ [y.1] ++ [y.2])
            ((GoMap.get? ((GoMap.get? specs y.1).getD firstMap) y.2).getD first)
            (GoMap.get? ((GoMap.get? raw y.1).getD []) y.2) (kt = .str2) <;>
        simp only [Option.bind_some, Option.bind_none, Option.some.injEq]
      exact insertK_comm ltB2_lin (Ne.symm hxy) _ _ _

theorem fieldValue_agree {path path' f raw} {objectMap : List (Bytes × CVal)}
    (h : ∀ s ∈ objectMap.flatMap (fun e => e.2.subs), ∀ p p' d, (el p s d).opt = (el' p' s d).opt)
    (hord : ∀ p ks, (ord p ks).Perm ks) (hord' : ∀ p ks, (ord' p ks).Perm ks)
    (hno : ∀ l kt et, GoMap.get? objectMap f.name = some (.list l) → env.resolve f.ty ≠ .map kt et) :
    (fieldValue env ord el path objectMap f raw).opt = (fieldValue env ord' el' path' objectMap f raw).opt := by
  have hs : ∀ v, GoMap.get? objectMap f.name = some v → ∀ s ∈ v.subs, ∀ p p' d, (el p s d).opt = (el' p' s d).opt :=
    fun v hv s hs => h s (List.mem_flatMap.2 ⟨_, GoMap.get?_mem hv, hs⟩)
  unfold fieldValue
  simp only
  split
  · rfl
  · rename_i x m hx
    have hs := hs _ hx
    simp only [Out.opt_bind]
    congr 1
    unfold handleMap2Struct
    split
    · rfl
    · rename_i fm hfm
      split
      · rfl
      · rename_i fs hfs
        obtain ⟨k, hk⟩ := getFirst_mem hfs
        split
        · simp only [Out.opt_bind]
          rw [map2Outer_agree hs (getFirst_mem hfm) (List.mem_map.2 ⟨_, hk, rfl⟩) hord hord'
            ((hord _ _).trans (hord' _ _).symm)]
        · rfl
  · rename_i x m hx
    have hs := hs _ hx
    simp only [Out.opt_bind]
    congr 1
    unfold handleMapStruct
    split
    · rfl
    · rename_i fs hfs
      obtain ⟨k, hk⟩ := getFirst_mem hfs
      split
      · simp only [Out.opt_bind]
        rw [mapLoop_agree hs (List.mem_map.2 ⟨_, hk, rfl⟩) ((hord _ _).trans (hord' _ _).symm)]
      · rfl
  · rename_i x hx
    have hs := hs _ hx
    simp only [Out.opt_bind]
    congr 1
    unfold handleListOrMapStruct
    split
    · rfl
    · split
      · rename_i ht; exact absurd ht (hno _ _ _ hx)
      · simp only [CVal.subs] at hs
        simp only [Out.opt_bind]
        rw [sliceLoop_agree hs (by simp)]
      · rfl
  · rename_i x m hx
    have hs := hs _ hx
    simp only [Out.opt_bind]
    congr 1
    unfold handleSingleStruct
    simp only [Out.opt_bind]
    rw [hs x (by simp [CVal.subs])]
  · rfl
  · rfl

/-- Both succeed with the same target, or both fail; if both return an error, the target is in
the same state. -/
def Res.Agree (r r' : Res) : Prop :=
  (∀ t, r = .ret t false ↔ r' = .ret t false) ∧ ∀ t t', r = .ret t true → r' = .ret t' true → t = t'

theorem Res.Agree.refl (r : Res) : r.Agree r :=
  ⟨fun _ => Iff.rfl, fun t t' h h' => by rw [h] at h'; cases h'; rfl⟩

theorem fieldLoop_agree {path path'} {objectMap : List (Bytes × CVal)} (l : List (Fld × Raw)) (tgt : Inst)
    (h : ∀ x ∈ l, (fieldValue env ord el path objectMap x.1 x.2).opt
      = (fieldValue env ord' el' path' objectMap x.1 x.2).opt) :
    (fieldLoop env ord el path objectMap l tgt).Agree (fieldLoop env ord' el' path' objectMap l tgt) := by
  induction l generalizing tgt with
  | nil => exact .refl _
  | cons x l ih =>
    obtain ⟨f, raw⟩ := x
    have ih := fun t => ih t (fun x hx => h x (List.mem_cons_of_mem _ hx))
    have h0 := h (f, raw) (by simp)
    simp only at h0
    simp only [fieldLoop]
    cases hx : fieldValue env ord el path objectMap f raw with
    | ok o =>
      rw [hx] at h0
      rw [Out.opt_eq.1 h0.symm]
      cases o with
      | some v => exact ih _
      | none => exact ih _
    | err =>
      rw [hx] at h0
      cases hy : fieldValue env ord' el' path' objectMap f raw with
      | ok o => rw [hy] at h0; simp [Out.opt] at h0
      | err => exact .refl _
      | panic => exact ⟨by simp, by simp⟩
      | hang => exact ⟨by simp, by simp⟩
    | panic =>
      rw [hx] at h0
      cases hy : fieldValue env ord' el' path' objectMap f raw with
      | ok o => rw [hy] at h0; simp [Out.opt] at h0
      | err => exact ⟨by simp, by simp⟩
      | panic => exact ⟨by simp, by simp⟩
      | hang => exact ⟨by simp, by simp⟩
    | hang =>
      rw [hx] at h0
      cases hy : fieldValue env ord' el' path' objectMap f raw with
      | ok o => rw [hy] at h0; simp [Out.opt] at h0
      | err => exact ⟨by simp, by simp⟩
      | panic => exact ⟨by simp, by simp⟩
      | hang => exact ⟨by simp, by simp⟩
end

theorem NoListOnMap.anti {env} {P P' : Bytes → Nat → Prop} (hP : ∀ nm c, P' nm c → P nm c) :
    ∀ {n s c}, NoListOnMap env P n s c → NoListOnMap env P' n s c
  | 0, _, _, _ => trivial
  | _ + 1, _, _, h => fun f hf sv hsv =>
      ⟨(h f hf sv hsv).1, fun s' hs' c' hc' => ((h f hf sv hsv).2 s' hs' c' (hP _ _ hc')).anti hP⟩

/-- `encoding/json` and the types are the same; the iteration orders may differ. -/
def withOrd (ext : Ext) (ord : List Bytes → List Bytes → List Bytes) : Ext := { ext with ord := ord }

theorem decode_agree {env ext fuel} {ord' : List Bytes → List Bytes → List Bytes}
    (hord : ∀ p ks, (ext.ord p ks).Perm ks) (hord' : ∀ p ks, (ord' p ks).Perm ks) (d : Nat) :
    ∀ {s : Cls}, s.depth ≤ d → ∀ {ref path path' tgt dat}, ref.keys.Nodup →
    NoListOnMap env (Origin env ref tgt.cls) d s tgt.cls →
    (decode env ext fuel ref path tgt s dat).Agree (decode env (withOrd ext ord') fuel ref path' tgt s dat) := by
  induction d with
  | zero => intro s hs; obtain ⟨a, c⟩ := s; simp [Cls.depth] at hs
  | succ d ih =>
    intro s hs ref path path' tgt dat hn hno
    rw [decode_eq, decode_eq]
    unfold jsonUnmarshalStep
    have hreg' : mergeReg env (withOrd ext ord') fuel ref tgt.cls = mergeReg env ext fuel ref tgt.cls := rfl
    rw [hreg']
    split
    · have : plainUnmarshal (withOrd ext ord') tgt dat = plainUnmarshal ext tgt dat := rfl
      rw [this]; exact .refl _
    · split
      · exact .refl _
      · rename_i reg hreg
        simp only
        have hso : (withOrd ext ord').structOf = ext.structOf := rfl
        rw [hso]
        split
        · exact .refl _
        · have hrd : ∀ k fs dd, rawDecode (withOrd ext ord') k fs dd = rawDecode ext k fs dd := by
            intro k fs dd
            have h1 : rawSet (withOrd ext ord') = rawSet ext := by
              funext f r j
              cases r <;> cases j <;> rfl
            have h2 : rawMember (withOrd ext ord') fs = rawMember ext fs := by
              funext raws e
              simp only [rawMember, h1]
              rfl
            have h3 : rawZero (withOrd ext ord') = rawZero ext := rfl
            cases dd with
            | none => rfl
            | some j => cases j <;> simp only [rawDecode, h2, h3]
          rw [hrd]
          split
          · exact .refl _
          · rename_i raws hraws
            apply fieldLoop_agree
            rintro ⟨f, raw⟩ hx
            have hfm : f ∈ loopFields (env.struct tgt.cls).fields := (List.of_mem_zip hx).1
            simp only
            by_cases hsv : ∃ sv, GoMap.get? s.fields f.name = some sv
            rotate_left
            · have hnone : GoMap.get? s.fields f.name = none := by
                cases hq : GoMap.get? s.fields f.name with
                | none => rfl
                | some v => exact absurd ⟨v, hq⟩ hsv
              cases raw <;> simp [fieldValue, hnone]
            obtain ⟨sv, hsv⟩ := hsv
            -- only the specification of this field matters
            have key : ∀ (oo : List Bytes → List Bytes → List Bytes) e pp,
                fieldValue env oo e pp s.fields f raw = fieldValue env oo e pp [(f.name, sv)] f raw := by
              intro oo e pp
              have : GoMap.get? [(f.name, sv)] f.name = some sv := by simp [GoMap.get?]
              unfold fieldValue
              rw [hsv, this]
            rw [key, key]
            refine fieldValue_agree ?_ hord hord' ?_
            · intro s' hs' p p' dd
              simp only [List.flatMap_cons, List.flatMap_nil, List.append_nil] at hs'
              unfold element
              split
              · rfl
              · rfl
              · rfl
              · rename_i c content hc
                have hsd : s' ∈ s.subs := List.mem_flatMap.2 ⟨_, GoMap.get?_mem hsv, hs'⟩
                have hdep := Cls.subs_depth hsd
                have := ih (s := s') (by omega) (ref := reg.toRef) (path := p) (path' := p')
                  (tgt := ⟨c, fresh env ext c⟩) (dat := dd) (toRef_nodup (mergeReg_spec hn hreg).1)
                  (((hno f hfm sv hsv).2 s' hs' c (origin_of_reg hn hreg hc)).anti
                    fun nm c' ho => origin_nested hn hreg hc ho)
                have hfr : fresh env (withOrd ext ord') c = fresh env ext c := rfl
                rw [hfr]
                have h1 := this.1
                cases hr : decode env ext fuel reg.toRef p ⟨c, fresh env ext c⟩ s' dd with
                | ret t e =>
                  cases e with
                  | false => rw [(h1 t).1 hr]
                  | true =>
                    cases hr' : decode env (withOrd ext ord') fuel reg.toRef p' ⟨c, fresh env ext c⟩ s' dd with
                    | ret t' e' =>
                      cases e' with
                      | false => have := (h1 t').2 hr'; rw [hr] at this; cases this
                      | true => rfl
                    | panic => rfl
                    | hang => rfl
                | panic =>
                    cases hr' : decode env (withOrd ext ord') fuel reg.toRef p' ⟨c, fresh env ext c⟩ s' dd with
                    | ret t' e' =>
                      cases e' with
                      | false => have := (h1 t').2 hr'; rw [hr] at this; cases this
                      | true => rfl
                    | panic => rfl
                    | hang => rfl
                | hang =>
                    cases hr' : decode env (withOrd ext ord') fuel reg.toRef p' ⟨c, fresh env ext c⟩ s' dd with
                    | ret t' e' =>
                      cases e' with
                      | false => have := (h1 t').2 hr'; rw [hr] at this; cases this
                      | true => rfl
                    | panic => rfl
                    | hang => rfl
            · intro l kt et hl
              simp [GoMap.get?] at hl
              exact (hno f hfm sv hsv).1 l kt et hl

/-! ## Templates -/

theorem collectN_congr {env : Env} {zero impls impls'} (h : ∀ k, GoMap.get? impls k = GoMap.get? impls' k)
    (fuel : Nat) (t : Ty) (ref : Reg) :
    collectN env zero impls fuel t ref = collectN env zero impls' fuel t ref := by
  induction fuel generalizing t ref with
  | zero => rfl
  | succ n ih => simp only [collectN, h, ih]

theorem implementations_get (ref : Ref) (hn : ref.keys.Nodup) (k : Bytes) :
    GoMap.get? (implementations ref) k = match GoMap.get? ref k with | some (.impls l) => some l | _ => none := by
  induction ref with
  | nil => rfl
  | cons e ref ih =>
    obtain ⟨k', v⟩ := e
    simp only [GoMap.keys, List.map_cons, List.nodup_cons] at hn
    have ih := ih hn.2
    have hnot : k' = k → GoMap.get? ref k = none := by
      rintro rfl; exact GoMap.get?_eq_none.2 hn.1
    cases v with
    | impls l =>
      have : implementations ((k', .impls l) :: ref) = (k', l) :: implementations ref := rfl
      rw [this]
      by_cases hk : k' = k
      · simp [GoMap.get?, hk]
      · simp only [GoMap.get?, hk, if_false]; exact ih
    | tmpl t =>
      have : implementations ((k', .tmpl t) :: ref) = implementations ref := rfl
      rw [this, ih]
      by_cases hk : k' = k
      · rw [hnot hk]; simp [GoMap.get?, hk]
      · simp [GoMap.get?, hk]

theorem SameTypes.impls {ref ref' : Ref} (h : SameTypes ref ref') (hn : ref.keys.Nodup) (hn' : ref'.keys.Nodup)
    (k : Bytes) : GoMap.get? (implementations ref) k = GoMap.get? (implementations ref') k := by
  rw [implementations_get ref hn, implementations_get ref' hn']
  have := h k
  revert this
  split <;> rename_i h1 h2 <;> simp [h1, h2]

/-- Templates of the same type. -/
def SameTmpl : Option Tmpl → Option Tmpl → Prop
  | none, none => True
  | some .nil, some .nil => True
  | some .bad, some .bad => True
  | some (.ptr c _), some (.ptr c' _) => c = c'
  | _, _ => False

theorem SameTmpl.refl (o : Option Tmpl) : SameTmpl o o := by
  cases o with
  | none => trivial
  | some t => cases t <;> trivial

theorem mergeReg_same {env ext fuel ref ref' c} (h : SameTypes ref ref') (hn : ref.keys.Nodup)
    (hn' : ref'.keys.Nodup) :
    (mergeReg env ext fuel ref c = none ∧ mergeReg env ext fuel ref' c = none) ∨
    ∃ reg reg', mergeReg env ext fuel ref c = some reg ∧ mergeReg env ext fuel ref' c = some reg' ∧
      reg.keys.Nodup ∧ reg'.keys.Nodup ∧ ∀ k, SameTmpl (GoMap.get? reg k) (GoMap.get? reg' k) := by
  have hc : collectN env (fresh env ext) (implementations ref) fuel (.ptr (.struct c)) []
      = collectN env (fresh env ext) (implementations ref') fuel (.ptr (.struct c)) [] :=
    collectN_congr (h.impls hn hn') _ _ _
  cases ha : mergeReg env ext fuel ref c with
  | none =>
    left
    refine ⟨rfl, ?_⟩
    unfold mergeReg at ha ⊢
    rw [← hc]
    simpa using ha
  | some reg =>
    right
    cases ha' : mergeReg env ext fuel ref' c with
    | none =>
      unfold mergeReg at ha ha'
      rw [← hc] at ha'
      simp at ha'
      rw [ha'] at ha
      simp at ha
    | some reg' =>
      obtain ⟨n1, auto, c1, g1⟩ := mergeReg_spec hn ha
      obtain ⟨n2, auto', c2, g2⟩ := mergeReg_spec hn' ha'
      rw [hc, c2] at c1
      cases c1
      refine ⟨reg, reg', rfl, rfl, n1, n2, fun k => ?_⟩
      rw [g1, g2]
      have := h k
      unfold tmplOf
      revert this
      split <;> rename_i h1 h2 <;> try simp only [h1, h2]
      · intro _; exact SameTmpl.refl _
      · intro _; exact SameTmpl.refl _
      · intro _; trivial
      · intro _; trivial
      · intro h; exact h
      · intro h; exact h.elim

theorem sameTypes_toRef {reg reg' : Reg} (h : ∀ k, SameTmpl (GoMap.get? reg k) (GoMap.get? reg' k)) :
    SameTypes reg.toRef reg'.toRef := by
  intro k
  rw [toRef_get, toRef_get]
  have := h k
  revert this
  unfold SameTmpl
  split <;> rename_i h1 h2 <;> (try simp [h1, h2])

theorem decode_same {env ext fuel} (d : Nat) : ∀ {s : Cls}, s.depth ≤ d → ∀ {ref ref' : Ref} {path tgt dat},
    ref.keys.Nodup → ref'.keys.Nodup → SameTypes ref ref' →
    decode env ext fuel ref path tgt s dat = decode env ext fuel ref' path tgt s dat := by
  induction d with
  | zero => intro s hs; obtain ⟨a, c⟩ := s; simp [Cls.depth] at hs
  | succ d ih =>
    intro s hs ref ref' path tgt dat hn hn' h
    rw [decode_eq, decode_eq]
    unfold jsonUnmarshalStep
    rcases mergeReg_same (env := env) (ext := ext) (fuel := fuel) (c := tgt.cls) h hn hn' with
      ⟨h1, h2⟩ | ⟨reg, reg', h1, h2, n1, n2, hk⟩
    · rw [h1, h2]
    · rw [h1, h2]
      split
      · rfl
      · simp only
        split
        · rfl
        · split
          · rfl
          · apply fieldLoop_congr
            intro s' hs' p dd
            have hdep : s'.depth < s.depth := Cls.subs_depth hs'
            have := hk s'.name
            unfold element
            revert this
            unfold SameTmpl
            split <;> rename_i g1 g2 <;> try simp only [g1, g2]
            · simp
            · simp
            · simp
            · rintro rfl
              rw [ih (s := s') (by omega) (toRef_nodup n1) (toRef_nodup n2) (sameTypes_toRef hk)]
            · intro h; exact h.elim

end Verif.Det

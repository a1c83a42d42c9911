import Verif.Model.DetGraph
import Verif.Lemmas.DetGlobal
import Verif.Spec.DetGraph
/-! # Specifications in memory: lemmas -/
namespace Verif.Det

/-- The same, and under `D` not stopped by the cut. -/
def Same {α : Type} (D : Prop) (x y : Out α) : Prop := x = y ∧ (D → x ≠ .hang)

theorem Same.bind {α β : Type} {D : Prop} {x y : Out α} {f g : α → Out β} (h : Same D x y) (hf : ∀ a, Same D (f a) (g a)) :
    Same D (x.bind f) (y.bind g) := by
  obtain ⟨rfl, h⟩ := h
  cases x with
  | ok a => exact hf a
  | err => exact ⟨rfl, by simp [Out.bind]⟩
  | panic => exact ⟨rfl, by simp [Out.bind]⟩
  | hang => exact ⟨rfl, fun d => absurd rfl (h d)⟩

theorem Same.done {α : Type} {D : Prop} {x : Out α} (h : x ≠ .hang) : Same D x x := ⟨rfl, fun _ => h⟩

theorem store_same {D : Prop} (env t i) : Same D (store env t i) (store env t i) :=
  Same.done (by unfold store; split <;> simp)

section loops
variable {env : Env} {ord : List Bytes → List Bytes → List Bytes} {el el' : List Bytes → Cls → Doc → Out Inst} {s s' : Nat → Cls}
variable {D : Prop} {P : Doc → Prop} (he : ∀ p a d, P d → Same D (el p (s a) d) (el' p (s' a) d))
include he

theorem mapLoop_same {path kt et first raw} {m : List (Bytes × Nat)} (hP : ∀ k, P (GoMap.get? raw k)) : ∀ keys acc,
    Same D (mapLoop env el path kt et (m.map fun e => (e.1, s e.2)) (s first) raw keys acc)
      (mapLoop env el' path kt et (m.map fun e => (e.1, s' e.2)) (s' first) raw keys acc)
  | [], acc => Same.done (by simp [mapLoop])
  | key :: keys, acc => by
    unfold mapLoop
    simp only [GoMap.get?_map m s, GoMap.get?_map m s', Option.getD_map]
    refine Same.bind (he _ _ _ (hP key)) fun i => Same.bind (store_same _ _ _) fun v => ?_
    split
    · exact Same.done (by simp)
    · exact mapLoop_same hP keys _

theorem listMapLoop_same {path kt et first raw} {l : List Nat} (hP : ∀ k, P (GoMap.get? raw k)) : ∀ k keys acc,
    Same D (listMapLoop env el path kt et (l.map s) (s first) raw k keys acc) (listMapLoop env el' path kt et (l.map s') (s' first) raw k keys acc)
  | _, [], acc => Same.done (by simp [listMapLoop])
  | k, key :: keys, acc => by
    unfold listMapLoop
    simp only [List.getElem?_map, Option.getD_map]
    refine Same.bind (he _ _ _ (hP key)) fun i => Same.bind (store_same _ _ _) fun v => ?_
    split
    · exact Same.done (by simp)
    · exact listMapLoop_same hP (k + 1) keys _

theorem sliceLoop_same {path et first} {l : List Nat} : ∀ k (js : List J), (∀ j ∈ js, P (some j)) →
    Same D (sliceLoop env el path et (l.map s) (s first) k js) (sliceLoop env el' path et (l.map s') (s' first) k js)
  | _, [], _ => Same.done (by simp [sliceLoop])
  | k, j :: js, hP => by
    unfold sliceLoop
    simp only [List.getElem?_map, Option.getD_map]
    refine Same.bind (he _ _ _ (hP j (by simp))) fun i => Same.bind (store_same _ _ _) fun v => ?_
    exact Same.bind (sliceLoop_same (k + 1) js fun j hj => hP j (by simp [hj])) fun vs => Same.done (by simp)

theorem map2Inner_same {path kt et first key0 raw} {m : List (Bytes × Nat)} (hP : ∀ k, P (GoMap.get? raw k)) : ∀ keys acc,
    Same D (map2Inner env el path kt et (m.map fun e => (e.1, s e.2)) (s first) key0 raw keys acc)
      (map2Inner env el' path kt et (m.map fun e => (e.1, s' e.2)) (s' first) key0 raw keys acc)
  | [], acc => Same.done (by simp [map2Inner])
  | key :: keys, acc => by
    unfold map2Inner
    simp only [GoMap.get?_map m s, GoMap.get?_map m s', Option.getD_map]
    refine Same.bind (he _ _ _ (hP key)) fun i => Same.bind (store_same _ _ _) fun v => ?_
    split
    · exact Same.done (by simp)
    · exact map2Inner_same hP keys _

theorem map2Outer_same {path kt et first raw} {m : List (Bytes × List (Bytes × Nat))} {fm : List (Bytes × Nat)}
    (hP : ∀ k k', P (GoMap.get? ((GoMap.get? raw k).getD []) k')) : ∀ keys acc,
    Same D (map2Outer env ord el path kt et (m.map fun e => (e.1, e.2.map fun e => (e.1, s e.2))) (fm.map fun e => (e.1, s e.2)) (s first) raw keys acc)
      (map2Outer env ord el' path kt et (m.map fun e => (e.1, e.2.map fun e => (e.1, s' e.2))) (fm.map fun e => (e.1, s' e.2)) (s' first) raw keys acc)
  | [], acc => Same.done (by simp [map2Outer])
  | key :: keys, acc => by
    unfold map2Outer
    simp only [GoMap.get?_map m (List.map fun e => (e.1, s e.2)), GoMap.get?_map m (List.map fun e => (e.1, s' e.2)), Option.getD_map]
    exact Same.bind (map2Inner_same he (hP key) _ _) fun acc => map2Outer_same hP keys acc

omit he in
theorem foldl_first_map {α β : Type} (f : α → β) : ∀ (m : List (Bytes × α)) (e : Bytes × α),
    (m.map fun e => (e.1, f e.2)).foldl (fun best e => if ltB e.1 best.1 then e else best) (e.1, f e.2)
      = (fun x : Bytes × α => (x.1, f x.2)) (m.foldl (fun best e => if ltB e.1 best.1 then e else best) e)
  | [], e => rfl
  | x :: m, e => by
    simp only [List.map_cons, List.foldl_cons]
    by_cases h : ltB x.1 e.1 = true
    · simp only [h, if_true]; exact foldl_first_map f m x
    · simp only [h]; exact foldl_first_map f m e

omit he in
theorem getFirst_map {α β : Type} (f : α → β) (m : List (Bytes × α)) : getFirst (m.map fun e => (e.1, f e.2)) = (getFirst m).map f := by
  cases m with
  | nil => rfl
  | cons e m =>
    obtain ⟨k, v⟩ := e
    simp only [List.map_cons, getFirst, Option.map_some]
    rw [foldl_first_map f m (k, v)]

theorem fieldValue_same {path f} {om : List (Bytes × GVal)} {raw : Raw} (hr : RawIn P raw) :
    Same D (fieldValue env ord el path (om.map fun e => (e.1, e.2.view s)) f raw) (fieldValue env ord el' path (om.map fun e => (e.1, e.2.view s')) f raw) := by
  unfold fieldValue
  simp only [GoMap.get?_map om (GVal.view s), GoMap.get?_map om (GVal.view s')]
  cases hg : GoMap.get? om f.name with
  | none =>
    simp only [Option.map_none]
    cases raw <;> exact Same.done (by simp)
  | some v =>
    simp only [Option.map_some]
    cases v with
    | none =>
      simp only [GVal.view]
      cases raw <;> exact Same.done (by simp)
    | single a =>
      simp only [GVal.view]
      cases raw with
      | msg d =>
        refine Same.bind ?_ fun v => Same.done (by simp)
        unfold handleSingleStruct
        refine Same.bind (he _ _ _ hr) fun i => ?_
        split
        · exact store_same _ _ _
        · exact store_same _ _ _
        · split <;> exact Same.done (by simp)
        · exact Same.done (by simp)
      | _ => exact Same.done (by simp)
    | list l =>
      simp only [GVal.view]
      refine Same.bind ?_ fun v => Same.done (by simp)
      cases l with
      | nil => simp only [List.map_nil, handleListOrMapStruct]; exact Same.done (by simp)
      | cons a l =>
        unfold handleListOrMapStruct
        simp only [List.map_cons]
        split
        · exact Same.bind (listMapLoop_same (l := a :: l) he hr.2 _ _ _) fun m => Same.done (by simp)
        · exact Same.bind (sliceLoop_same (l := a :: l) he _ _ hr) fun m => Same.done (by simp)
        · exact Same.done (by simp)
    | map m =>
      simp only [GVal.view]
      cases raw with
      | map r =>
        refine Same.bind ?_ fun v => Same.done (by simp)
        unfold handleMapStruct
        rw [getFirst_map s, getFirst_map s']
        cases getFirst m with
        | none => exact Same.done (by simp)
        | some a =>
          simp only [Option.map_some]
          split
          · exact Same.bind (mapLoop_same he hr.2 _ _) fun m => Same.done (by simp)
          · exact Same.done (by simp)
      | _ => exact Same.done (by simp)
    | map2 m =>
      simp only [GVal.view]
      cases raw with
      | map2 r =>
        refine Same.bind ?_ fun v => Same.done (by simp)
        unfold handleMap2Struct
        rw [getFirst_map (List.map fun e : Bytes × Nat => (e.1, s e.2)), getFirst_map (List.map fun e : Bytes × Nat => (e.1, s' e.2))]
        cases getFirst m with
        | none => exact Same.done (by simp)
        | some fm =>
          simp only [Option.map_some]
          rw [getFirst_map s, getFirst_map s']
          cases getFirst fm with
          | none => exact Same.done (by simp)
          | some a =>
            simp only [Option.map_some]
            split
            · exact Same.bind (map2Outer_same he hr.2 _ _) fun m => Same.done (by simp)
            · exact Same.done (by simp)
      | _ => exact Same.done (by simp)

theorem fieldLoop_same {path} {om : List (Bytes × GVal)} : ∀ (l : List (Fld × Raw)) (tgt : Inst), (∀ x ∈ l, RawIn P x.2) →
    fieldLoop env ord el path (om.map fun e => (e.1, e.2.view s)) l tgt = fieldLoop env ord el' path (om.map fun e => (e.1, e.2.view s')) l tgt ∧
    (D → fieldLoop env ord el path (om.map fun e => (e.1, e.2.view s)) l tgt ≠ .hang)
  | [], tgt, _ => by simp [fieldLoop]
  | (f, raw) :: l, tgt, h => by
    have hv : Same D (fieldValue env ord el path (om.map fun e => (e.1, e.2.view s)) f raw) (fieldValue env ord el' path (om.map fun e => (e.1, e.2.view s')) f raw) :=
      fieldValue_same he (h (f, raw) (by simp))
    have ih := fun t => fieldLoop_same (path := path) (om := om) l t fun x hx => h x (by simp [hx])
    unfold fieldLoop
    rw [← hv.1]
    cases hx : fieldValue env ord el path (om.map fun e => (e.1, e.2.view s)) f raw with
    | ok o => cases o with
      | none => exact ih tgt
      | some v => exact ih _
    | err => simp
    | panic => simp
    | hang => exact ⟨rfl, fun d => absurd hx (hv.2 d)⟩

end loops

/-! ## The documents of the raw struct -/

theorem mem_set {α : Type} {k : Bytes} {v : α} {e : Bytes × α} : ∀ {m : GoMap Bytes α}, e ∈ GoMap.set m k v → e = (k, v) ∨ e ∈ m
  | [], h => by simpa [GoMap.set] using h
  | (k', v') :: m, h => by
    unfold GoMap.set at h
    split at h
    · rcases List.mem_cons.1 h with h | h
      · exact .inl h
      · exact .inr (by simp [h])
    · rcases List.mem_cons.1 h with h | h
      · exact .inr (by simp [h])
      · rcases mem_set h with h | h
        · exact .inl h
        · exact .inr (by simp [h])

theorem mem_mergeMembers {α : Type} {e : Bytes × α} : ∀ {l : List (Bytes × α)} {m : GoMap Bytes α}, e ∈ mergeMembers m l → e ∈ m ∨ e ∈ l
  | [], m, h => .inl h
  | x :: l, m, h => by
    rcases mem_mergeMembers (l := l) (m := GoMap.set m x.1 x.2) h with h | h
    · rcases mem_set h with h | h
      · exact .inr (by simp [h])
      · exact .inl h
    · exact .inr (by simp [h])

theorem depthJs_le : ∀ {l : List J} {j}, j ∈ l → j.depth ≤ depthJs l
  | x :: l, j, h => by
    unfold depthJs
    rcases List.mem_cons.1 h with rfl | h
    · omega
    · have := depthJs_le h; omega

theorem depthMs_le : ∀ {l : List (Bytes × J)} {e}, e ∈ l → e.2.depth ≤ depthMs l
  | x :: l, j, h => by
    obtain ⟨k, x⟩ := x
    unfold depthMs
    rcases List.mem_cons.1 h with rfl | h
    · simp only; omega
    · have := depthMs_le h; omega

theorem mapM_mem {α β : Type} {f : α → Option β} {y : β} : ∀ {l : List α} {l' : List β}, l.mapM f = some l' → y ∈ l' → ∃ x ∈ l, f x = some y
  | [], l', h, hy => by simp at h; subst h; cases hy
  | x :: l, l', h, hy => by
    simp only [List.mapM_cons, Option.bind_eq_bind, Option.bind_eq_some_iff, Option.pure_def, Option.some.injEq] at h
    obtain ⟨z, hz, l1, h1, rfl⟩ := h
    rcases List.mem_cons.1 hy with rfl | hy
    · exact ⟨x, by simp, hz⟩
    · obtain ⟨w, hw, e⟩ := mapM_mem h1 hy
      exact ⟨w, by simp [hw], e⟩

/-- The documents that `k` calls are enough for. -/
abbrev Within (k : Nat) (d : Doc) : Prop := d.calls ≤ k

theorem get?_within {k : Nat} (hk : 1 ≤ k) {m : GoMap Bytes J} (h : ∀ e ∈ m, e.2.depth + 2 ≤ k) (x : Bytes) : Within k (GoMap.get? m x) := by
  cases hg : GoMap.get? m x with
  | none => exact hk
  | some j => exact h _ (GoMap.get?_mem hg)

theorem rawIn_map {k : Nat} (hk : 1 ≤ k) {m : GoMap Bytes J} (h : ∀ e ∈ m, e.2.depth + 2 ≤ k) : RawIn (Within k) (.map m) :=
  ⟨h, get?_within hk h⟩

theorem rawIn_map2 {k : Nat} (hk : 1 ≤ k) {m : GoMap Bytes (GoMap Bytes J)} (h : ∀ e ∈ m, ∀ e' ∈ e.2, e'.2.depth + 2 ≤ k) : RawIn (Within k) (.map2 m) := by
  refine ⟨h, fun x y => ?_⟩
  cases hg : GoMap.get? m x with
  | none => exact hk
  | some r => exact get?_within hk (h _ (GoMap.get?_mem hg)) y

theorem innerMap_within {k : Nat} {j : J} {m : GoMap Bytes J} (h : innerMap j = some m) (hj : j.depth + 2 ≤ k) : ∀ e ∈ m, e.2.depth + 2 ≤ k := by
  intro e he
  cases j with
  | null => simp [innerMap] at h; subst h; cases he
  | obj o =>
    simp [innerMap] at h; subst h
    rcases mem_mergeMembers he with he | he
    · cases he
    · have := depthMs_le he
      unfold J.depth at hj; omega
  | atom t => simp [innerMap] at h
  | arr l => simp [innerMap] at h

theorem rawSet_within {ext f} {k : Nat} (hk : 1 ≤ k) {r r' : Raw} {j : J} (hr : RawIn (Within k) r) (hj : j.depth + 2 ≤ k) (h : rawSet ext f r j = some r') :
    RawIn (Within k) r' := by
  cases r with
  | msg d => simp [rawSet] at h; subst h; exact hj
  | list l =>
    cases j with
    | null => simp [rawSet] at h; subst h; intro j hj; cases hj
    | arr l =>
      simp [rawSet] at h; subst h
      intro j' hj'
      have := depthJs_le hj'
      unfold J.depth at hj
      show j'.depth + 2 ≤ k
      omega
    | atom t => simp [rawSet] at h
    | obj m => simp [rawSet] at h
  | map m =>
    cases j with
    | null => simp [rawSet] at h; subst h; exact rawIn_map hk (by simp)
    | obj l =>
      simp [rawSet] at h; subst h
      refine rawIn_map hk fun e he => ?_
      rcases mem_mergeMembers he with he | he
      · exact hr.1 e he
      · have := depthMs_le he
        unfold J.depth at hj; omega
    | atom t => simp [rawSet] at h
    | arr l => simp [rawSet] at h
  | map2 m =>
    cases j with
    | null => simp [rawSet] at h; subst h; exact rawIn_map2 hk (by simp)
    | obj l =>
      simp only [rawSet, Option.map_eq_some_iff] at h
      obtain ⟨l', hl', rfl⟩ := h
      refine rawIn_map2 hk fun e he => ?_
      rcases mem_mergeMembers he with he | he
      · exact hr.1 e he
      · obtain ⟨x, hx, hxe⟩ := mapM_mem hl' he
        simp only [Option.map_eq_some_iff] at hxe
        obtain ⟨m', hm', rfl⟩ := hxe
        have := depthMs_le hx
        unfold J.depth at hj
        exact innerMap_within hm' (by omega)
    | atom t => simp [rawSet] at h
    | arr l => simp [rawSet] at h
  | val v =>
    simp only [rawSet, Option.map_eq_some_iff] at h
    obtain ⟨w, _, rfl⟩ := h
    trivial

theorem rawMember_within {ext fs} {k : Nat} (hk : 1 ≤ k) {rs rs' : List Raw} {e : Bytes × J} (hr : ∀ r ∈ rs, RawIn (Within k) r) (hj : e.2.depth + 2 ≤ k)
    (h : rawMember ext fs rs e = some rs') : ∀ r ∈ rs', RawIn (Within k) r := by
  unfold rawMember at h
  split at h
  · simp only [Option.some.injEq] at h; subst h; exact hr
  · split at h
    · rename_i r _ hri
      simp only [Option.map_eq_some_iff] at h
      obtain ⟨r1, h1, rfl⟩ := h
      intro r' hr'
      rcases List.mem_or_eq_of_mem_set hr' with hr' | rfl
      · exact hr _ hr'
      · exact rawSet_within hk (hr _ (List.mem_of_getElem? hri)) hj h1
    · simp only [Option.some.injEq] at h; subst h; exact hr

theorem rawFold_within {ext fs} {k : Nat} (hk : 1 ≤ k) : ∀ {m : List (Bytes × J)} {rs rs' : List Raw}, (∀ r ∈ rs, RawIn (Within k) r) →
    (∀ e ∈ m, e.2.depth + 2 ≤ k) → m.foldlM (rawMember ext fs) rs = some rs' → ∀ r ∈ rs', RawIn (Within k) r
  | [], rs, rs', hr, _, h => by simp at h; subst h; exact hr
  | e :: m, rs, rs', hr, hm, h => by
    simp only [List.foldlM_cons, Option.bind_eq_bind, Option.bind_eq_some_iff] at h
    obtain ⟨r1, h1, h2⟩ := h
    exact rawFold_within hk (rawMember_within hk hr (hm e (by simp)) h1) (fun x hx => hm x (by simp [hx])) h2

theorem rawDecode_within {ext kind fs} {k : Nat} (hk : 1 ≤ k) {d : Doc} (hd : d.calls ≤ k + 1) {rs : List Raw} (h : rawDecode ext kind fs d = some rs) :
    ∀ r ∈ rs, RawIn (Within k) r := by
  have h0 : ∀ r ∈ fs.map fun f => rawZero ext (kind f) f, RawIn (Within k) r := by
    intro r hr
    obtain ⟨f, _, rfl⟩ := List.mem_map.1 hr
    unfold rawZero
    split
    · exact hk
    · intro j hj; cases hj
    · exact rawIn_map hk (by simp)
    · exact rawIn_map2 hk (by simp)
    · trivial
  cases d with
  | none => simp [rawDecode] at h
  | some j =>
    cases j with
    | null => simp only [rawDecode, Option.some.injEq] at h; subst h; exact h0
    | obj m =>
      refine rawFold_within hk h0 (fun e he => ?_) h
      have := depthMs_le he
      simp only [Doc.calls, J.depth] at hd
      omega
    | atom t => simp [rawDecode] at h
    | arr l => simp [rawDecode] at h

/-! ## The calls -/

theorem rawKind_view (env : Env) (om : List (Bytes × GVal)) (s s' : Nat → Cls) :
    rawKind env (om.map fun e => (e.1, e.2.view s)) = rawKind env (om.map fun e => (e.1, e.2.view s')) := by
  funext f
  unfold rawKind
  rw [GoMap.get?_map om (GVal.view s), GoMap.get?_map om (GVal.view s')]
  cases GoMap.get? om f.name with
  | none => rfl
  | some v => cases v <;> rfl

theorem spec_name (g : Graph) (n a : Nat) : (g.spec n a).name = (g a).name := by cases n <;> rfl

theorem step_same {env ext fuel} {D : Prop} {g : Graph} {n m : Nat} {rec rec' : Ref → List Bytes → Inst → Cls → Doc → Res} {k : Nat}
    {ref : Ref} {tgt : Inst} {dat : Doc} (hk : (dat = none ∨ 1 ≤ k) ∧ dat.calls ≤ k + 1)
    (hreg : D → mergeReg env ext fuel ref tgt.cls ≠ none)
    (h : ∀ reg p t a d, mergeReg env ext fuel ref tgt.cls = some reg → Within k d →
      rec reg.toRef p t (g.spec n a) d = rec' reg.toRef p t (g.spec m a) d ∧ (D → rec reg.toRef p t (g.spec n a) d ≠ .hang)) (path a) :
    jsonUnmarshalStep env ext fuel rec ref path tgt (g.spec (n + 1) a) dat = jsonUnmarshalStep env ext fuel rec' ref path tgt (g.spec (m + 1) a) dat ∧
    (D → jsonUnmarshalStep env ext fuel rec ref path tgt (g.spec (n + 1) a) dat ≠ .hang) := by
  unfold jsonUnmarshalStep
  simp only [Graph.spec, Cls.fields, List.map_eq_nil_iff]
  by_cases h0 : (g a).fields = []
  · simp only [h0, if_true, true_and]
    intro _
    cases dat <;> simp [plainUnmarshal]
  · simp only [h0, if_false]
    cases hm : mergeReg env ext fuel ref tgt.cls with
    | none => exact ⟨rfl, fun d => absurd hm (hreg d)⟩
    | some reg =>
      simp only
      by_cases h1 : ¬ ((loopFields (env.struct tgt.cls).fields).map Fld.name).Nodup ∨ ext.structOf (loopFields (env.struct tgt.cls).fields) = false
      · simp only [if_pos h1]; simp
      · simp only [if_neg h1]
        rw [rawKind_view env (g a).fields (g.spec n) (g.spec m)]
        cases hr : rawDecode ext (rawKind env ((g a).fields.map fun e => (e.1, e.2.view (g.spec m)))) (loopFields (env.struct tgt.cls).fields) dat with
        | none => simp
        | some raws =>
          simp only
          have hk1 : 1 ≤ k := by
            rcases hk.1 with rfl | h
            · simp [rawDecode] at hr
            · exact h
          refine fieldLoop_same (P := Within k) ?_ _ _ ?_
          · intro p a d hd
            unfold element Same
            rw [spec_name, spec_name]
            cases GoMap.get? reg (g a).name with
            | none => simp
            | some t =>
              cases t with
              | nil => simp
              | bad => simp
              | ptr c content =>
                obtain ⟨h2, h3⟩ := h reg p ⟨c, fresh env ext c⟩ a d hm hd
                simp only
                rw [← h2]
                refine ⟨rfl, fun hD => ?_⟩
                have := h3 hD
                cases hq : rec reg.toRef p ⟨c, fresh env ext c⟩ (g.spec n a) d with
                | ret t e => cases e <;> simp
                | panic => simp
                | hang => exact absurd hq this
          · intro x hx
            exact rawDecode_within hk1 hk.2 hr _ (List.of_mem_zip hx).2

theorem mergeReg_toRef_ne {env ext fuel} (hD : ∀ c, collectN env (fresh env ext) [] fuel (.ptr (.struct c)) [] ≠ none) (reg : Reg) (c : Nat) :
    mergeReg env ext fuel reg.toRef c ≠ none := by
  unfold mergeReg
  rw [toRef_impls]
  simpa using hD c

/-- Calls and levels enough for the document give the same. -/
theorem levels_same {env ext fuel} {g : Graph} : ∀ (n m k l : Nat) {ref : Ref} {dat : Doc}, dat.calls ≤ n → dat.calls ≤ m → dat.calls ≤ k → dat.calls ≤ l →
    ∀ path (tgt : Inst) a,
    jsonUnmarshalN env ext fuel n ref path tgt (g.spec k a) dat = jsonUnmarshalN env ext fuel m ref path tgt (g.spec l a) dat ∧
    ((∀ c, collectN env (fresh env ext) [] fuel (.ptr (.struct c)) [] ≠ none) ∧ mergeReg env ext fuel ref tgt.cls ≠ none →
      jsonUnmarshalN env ext fuel n ref path tgt (g.spec k a) dat ≠ .hang)
  | 0, _, _, _, _, dat, h, _, _, _, _, _, _ => by cases dat <;> simp [Doc.calls] at h
  | _ + 1, 0, _, _, _, dat, _, h, _, _, _, _, _ => by cases dat <;> simp [Doc.calls] at h
  | _ + 1, _ + 1, 0, _, _, dat, _, _, h, _, _, _, _ => by cases dat <;> simp [Doc.calls] at h
  | _ + 1, _ + 1, _ + 1, 0, _, dat, _, _, _, h, _, _, _ => by cases dat <;> simp [Doc.calls] at h
  | n + 1, m + 1, k + 1, l + 1, ref, dat, h1, h2, h3, h4, path, tgt, a => by
    simp only [jsonUnmarshalN]
    refine step_same (k := min (min n m) (min k l)) ⟨?_, ?_⟩ (fun hD => hD.2) ?_ path a
    · cases dat with
      | none => exact .inl rfl
      | some j =>
        refine .inr ?_
        simp only [Doc.calls] at h1 h2 h3 h4
        omega
    · omega
    · intro reg p t b d hreg hd
      simp only [Within] at hd
      obtain ⟨i1, i2⟩ := levels_same (env := env) (ext := ext) (fuel := fuel) (g := g) n m k l (ref := reg.toRef) (dat := d)
        (by omega) (by omega) (by omega) (by omega) p t b
      exact ⟨i1, fun hD => i2 ⟨hD.1, mergeReg_toRef_ne hD.1 reg _⟩⟩

/-! ## Cycles of single fields -/

theorem rawMember_length {ext fs} {rs rs' : List Raw} {e : Bytes × J} (h : rawMember ext fs rs e = some rs') : rs'.length = rs.length := by
  unfold rawMember at h
  split at h
  · simp only [Option.some.injEq] at h; subst h; rfl
  · split at h
    · simp only [Option.map_eq_some_iff] at h
      obtain ⟨r1, _, rfl⟩ := h
      simp
    · simp only [Option.some.injEq] at h; subst h; rfl

theorem rawFold_length {ext fs} : ∀ {m : List (Bytes × J)} {rs rs' : List Raw}, m.foldlM (rawMember ext fs) rs = some rs' → rs'.length = rs.length
  | [], rs, rs', h => by simp at h; subst h; rfl
  | e :: m, rs, rs', h => by
    simp only [List.foldlM_cons, Option.bind_eq_bind, Option.bind_eq_some_iff] at h
    obtain ⟨r1, h1, h2⟩ := h
    rw [rawFold_length h2, rawMember_length h1]

theorem rawDecode_length {ext kind fs} {d : Doc} {rs : List Raw} (h : rawDecode ext kind fs d = some rs) : rs.length = fs.length := by
  cases d with
  | none => simp [rawDecode] at h
  | some j =>
    cases j with
    | null => simp only [rawDecode, Option.some.injEq] at h; subst h; simp
    | obj m => have := rawFold_length (m := m) h; simpa using this
    | atom t => simp [rawDecode] at h
    | arr l => simp [rawDecode] at h

theorem fieldLoop_all {env ord el path} {om : List (Bytes × CVal)} : ∀ {l : List (Fld × Raw)} {tgt t' : Inst},
    fieldLoop env ord el path om l tgt = .ret t' false → ∀ x ∈ l, ∃ o, fieldValue env ord el path om x.1 x.2 = .ok o
  | [], _, _, _, x, hx => by cases hx
  | (f, raw) :: l, tgt, t', h, x, hx => by
    unfold fieldLoop at h
    cases hv : fieldValue env ord el path om f raw with
    | ok o =>
      rw [hv] at h
      rcases List.mem_cons.1 hx with rfl | hx
      · exact ⟨o, hv⟩
      · cases o with
        | none => exact fieldLoop_all h x hx
        | some v => exact fieldLoop_all h x hx
    | err => rw [hv] at h; simp at h
    | panic => rw [hv] at h; simp at h
    | hang => rw [hv] at h; simp at h

theorem mergeReg_keeps {env ext fuel ref c reg k t} (hn : ref.keys.Nodup) (h : mergeReg env ext fuel ref c = some reg) (hk : GoMap.get? ref k = some (.tmpl t)) :
    GoMap.get? reg k = some t := by
  obtain ⟨_, auto, _, hg⟩ := mergeReg_spec hn h
  rw [hg k, tmplOf_eq.2 hk]
  rfl

/-- A call that succeeds has called itself for every field specified by one struct. -/
theorem at_single {env ext fuel} {g : Graph} {n : Nat} {ref path} {tgt t' : Inst} {a a' : Nat} {dat f}
    (h : unmarshalAt env ext fuel g (n + 1) ref path tgt a dat = .ret t' false) (hf : f ∈ loopFields (env.struct tgt.cls).fields)
    (hs : GoMap.get? (g a).fields f.name = some (.single a')) :
    ∃ reg, mergeReg env ext fuel ref tgt.cls = some reg ∧ ∀ c content, GoMap.get? reg (g a').name = some (.ptr c content) →
      ∃ p d t, unmarshalAt env ext fuel g n reg.toRef p ⟨c, fresh env ext c⟩ a' d = .ret t false := by
  unfold unmarshalAt at h
  simp only [jsonUnmarshalN] at h
  unfold jsonUnmarshalStep at h
  simp only [Graph.spec, Cls.fields, List.map_eq_nil_iff] at h
  have h0 : (g a).fields ≠ [] := by intro h0; rw [h0] at hs; simp [GoMap.get?] at hs
  rw [if_neg h0] at h
  cases hm : mergeReg env ext fuel ref tgt.cls with
  | none => rw [hm] at h; simp at h
  | some reg =>
    rw [hm] at h
    simp only at h
    refine ⟨reg, rfl, fun c content hc => ?_⟩
    split at h
    · simp at h
    · split at h
      · simp at h
      · rename_i raws hr
        have hlen : raws.length = (loopFields (env.struct tgt.cls).fields).length := rawDecode_length hr
        obtain ⟨i, hi⟩ := List.mem_iff_getElem?.1 hf
        have hi' : i < raws.length := by
          rw [hlen]; exact (List.getElem?_eq_some_iff.1 hi).1
        have hz : (f, raws[i]) ∈ (loopFields (env.struct tgt.cls).fields).zip raws := by
          refine List.mem_iff_getElem?.2 ⟨i, ?_⟩
          rw [List.getElem?_zip_eq_some]
          exact ⟨hi, List.getElem?_eq_getElem hi'⟩
        obtain ⟨o, ho⟩ := fieldLoop_all h _ hz
        unfold fieldValue at ho
        simp only [GoMap.get?_map (g a).fields (GVal.view (g.spec n)), hs, Option.map_some] at ho
        simp only [GVal.view] at ho
        cases hraw : raws[i] with
        | msg d =>
          rw [hraw] at ho
          simp only [handleSingleStruct] at ho
          obtain ⟨v, hv, _⟩ := Out.bind_ok.1 ho
          obtain ⟨ins, hin, _⟩ := Out.bind_ok.1 hv
          unfold element at hin
          rw [spec_name, hc] at hin
          simp only at hin
          cases hq : jsonUnmarshalN env ext fuel n reg.toRef (path ++ [f.name]) ⟨c, fresh env ext c⟩ (g.spec n a') d with
          | ret t e =>
            rw [hq] at hin
            cases e with
            | false => exact ⟨_, d, t, hq⟩
            | true => simp at hin
          | panic => rw [hq] at hin; simp at hin
          | hang => rw [hq] at hin; simp at hin
        | list l => rw [hraw] at ho; simp at ho
        | map m => rw [hraw] at ho; simp at ho
        | map2 m => rw [hraw] at ho; simp at ho
        | val v => rw [hraw] at ho; simp at ho

end Verif.Det

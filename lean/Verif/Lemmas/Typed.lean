import Verif.Spec.Typed
/-!
# Lemmas about types of results
-/
namespace Verif.Typed
open Funcs (K Res BF)

/-! ## Types -/

theorem tysL_eq (l : List V) : tysL l = l.map V.ty := by
  induction l with
  | nil => rfl
  | cons v l ih => simp only [tysL, List.map_cons, ih]

theorem tysO_eq (m : List (Bytes × V)) : tysO m = m.map fun p => (p.1, p.2.ty) := by
  induction m with
  | nil => rfl
  | cons p m ih => obtain ⟨k, v⟩ := p; simp only [tysO, tysP, List.map_cons, ih]

mutual
theorem cmp_iff : ∀ (w g : Ty), cmp true w g = true ↔ Fits g w
  | .dyn, g => by
    constructor
    · intro _; exact .any g
    · intro _; cases g <;> rfl
  | .bool, g => by cases g <;> simp only [cmp] <;> constructor <;> intro h <;> first | trivial | exact .bool | (cases h; done)
  | .num, g => by cases g <;> simp only [cmp] <;> constructor <;> intro h <;> first | trivial | exact .num | (cases h; done)
  | .str, g => by cases g <;> simp only [cmp] <;> constructor <;> intro h <;> first | trivial | exact .str | (cases h; done)
  | .typ, g => by cases g <;> simp only [cmp] <;> constructor <;> intro h <;> first | trivial | exact .typ | (cases h; done)
  | .list w, g => by
    cases g <;> simp only [cmp]
    case list g => exact ⟨fun h => .list ((cmp_iff w g).1 h), fun h => by cases h with | list h => exact (cmp_iff w g).2 h⟩
    all_goals constructor <;> intro h <;> cases h
  | .set w, g => by
    cases g <;> simp only [cmp]
    case set g => exact ⟨fun h => .set ((cmp_iff w g).1 h), fun h => by cases h with | set h => exact (cmp_iff w g).2 h⟩
    all_goals constructor <;> intro h <;> cases h
  | .map w, g => by
    cases g <;> simp only [cmp]
    case map g => exact ⟨fun h => .map ((cmp_iff w g).1 h), fun h => by cases h with | map h => exact (cmp_iff w g).2 h⟩
    all_goals constructor <;> intro h <;> cases h
  | .tup ws, g => by
    cases g <;> simp only [cmp]
    case tup gs =>
      constructor
      · intro h; exact .tup ((cmpL_iff ws gs).1 h).1 ((cmpL_iff ws gs).1 h).2
      · intro h; cases h with | tup h1 h2 => exact (cmpL_iff ws gs).2 ⟨h1, h2⟩
    all_goals constructor <;> intro h <;> cases h
  | .obj ws, g => by
    cases g <;> simp only [cmp]
    case obj gs =>
      constructor
      · intro h; exact .obj ((cmpO_iff ws gs).1 h).1 ((cmpO_iff ws gs).1 h).2
      · intro h; cases h with | obj h1 h2 => exact (cmpO_iff ws gs).2 ⟨h1, h2⟩
    all_goals constructor <;> intro h <;> cases h
termination_by structural w => w
theorem cmpL_iff : ∀ (ws gs : List Ty), cmpL true ws gs = true ↔
    gs.length = ws.length ∧ ∀ (i : Nat) (g w : Ty), gs[i]? = some g → ws[i]? = some w → Fits g w
  | [], gs => by cases gs <;> simp [cmpL]
  | w :: ws, gs => by
    cases gs with
    | nil => simp [cmpL]
    | cons g gs =>
      simp only [cmpL, Bool.and_eq_true, cmp_iff w g, cmpL_iff ws gs, List.length_cons, Nat.add_right_cancel_iff]
      constructor
      · rintro ⟨h1, h2, h3⟩
        refine ⟨h2, fun i a c ha hc => ?_⟩
        cases i with
        | zero => simp at ha hc; subst ha; subst hc; exact h1
        | succ i => simp at ha hc; exact h3 i a c ha hc
      · rintro ⟨h1, h2⟩
        exact ⟨h2 0 g w rfl rfl, h1, fun i a c ha hc => h2 (i + 1) a c (by simpa using ha) (by simpa using hc)⟩
termination_by structural ws => ws
theorem cmpO_iff : ∀ (ws gs : List (Bytes × Ty)), cmpO true ws gs = true ↔
    gs.map (·.1) = ws.map (·.1) ∧ ∀ (i : Nat) (g w : Bytes × Ty), gs[i]? = some g → ws[i]? = some w → Fits g.2 w.2
  | [], gs => by cases gs <;> simp [cmpO]
  | w :: ws, gs => by
    cases gs with
    | nil => simp [cmpO]
    | cons g gs =>
      simp only [cmpO, Bool.and_eq_true, cmpP_iff w g, cmpO_iff ws gs, List.map_cons, List.cons.injEq]
      constructor
      · rintro ⟨⟨h0, h1⟩, h2, h3⟩
        refine ⟨⟨h0, h2⟩, fun i a c ha hc => ?_⟩
        cases i with
        | zero => simp at ha hc; subst ha; subst hc; exact h1
        | succ i => simp at ha hc; exact h3 i a c ha hc
      · rintro ⟨⟨h0, h1⟩, h2⟩
        exact ⟨⟨h0, h2 0 g w rfl rfl⟩, h1, fun i a c ha hc => h2 (i + 1) a c (by simpa using ha) (by simpa using hc)⟩
termination_by structural ws => ws
theorem cmpP_iff : ∀ (w g : Bytes × Ty), cmpP true w g = true ↔ g.1 = w.1 ∧ Fits g.2 w.2
  | (k, w), (k', g) => by
    simp only [cmpP, Bool.and_eq_true, decide_eq_true_eq, cmp_iff w g]
    exact ⟨fun h => ⟨h.1.symm, h.2⟩, fun h => ⟨h.1.symm, h.2⟩⟩
termination_by structural w => w
end

mutual
theorem cmp_eq : ∀ (w g : Ty), cmp false w g = true ↔ g = w
  | .dyn, g => by cases g <;> simp [cmp]
  | .bool, g => by cases g <;> simp [cmp]
  | .num, g => by cases g <;> simp [cmp]
  | .str, g => by cases g <;> simp [cmp]
  | .typ, g => by cases g <;> simp [cmp]
  | .list w, g => by cases g <;> simp only [cmp, cmp_eq w, Ty.list.injEq] <;> simp
  | .set w, g => by cases g <;> simp only [cmp, cmp_eq w, Ty.set.injEq] <;> simp
  | .map w, g => by cases g <;> simp only [cmp, cmp_eq w, Ty.map.injEq] <;> simp
  | .tup ws, g => by cases g <;> simp only [cmp, cmpL_eq ws, Ty.tup.injEq] <;> simp
  | .obj ws, g => by cases g <;> simp only [cmp, cmpO_eq ws, Ty.obj.injEq] <;> simp
termination_by structural w => w
theorem cmpL_eq : ∀ (ws gs : List Ty), cmpL false ws gs = true ↔ gs = ws
  | [], gs => by cases gs <;> simp [cmpL]
  | w :: ws, gs => by cases gs <;> simp [cmpL, cmp_eq w, cmpL_eq ws]
termination_by structural ws => ws
theorem cmpO_eq : ∀ (ws gs : List (Bytes × Ty)), cmpO false ws gs = true ↔ gs = ws
  | [], gs => by cases gs <;> simp [cmpO]
  | w :: ws, gs => by cases gs <;> simp [cmpO, cmpP_eq w, cmpO_eq ws]
termination_by structural ws => ws
theorem cmpP_eq : ∀ (w g : Bytes × Ty), cmpP false w g = true ↔ g = w
  | (k, w), (k', g) => by
    simp only [cmpP, Bool.and_eq_true, decide_eq_true_eq, cmp_eq w g, Prod.mk.injEq]
    exact ⟨fun h => ⟨h.1.symm, h.2⟩, fun h => ⟨h.1.symm, h.2⟩⟩
termination_by structural w => w
end

mutual
theorem Fits.refl : ∀ t : Ty, Fits t t
  | .dyn => .any _
  | .bool => .bool
  | .num => .num
  | .str => .str
  | .typ => .typ
  | .list e => .list (Fits.refl e)
  | .set e => .set (Fits.refl e)
  | .map e => .map (Fits.refl e)
  | .tup es => .tup rfl fun i g w hg hw => by
    rw [hg] at hw; obtain rfl := Option.some.inj hw; exact reflL es g (List.mem_of_getElem? hg)
  | .obj as => .obj rfl fun i g w hg hw => by
    rw [hg] at hw; obtain rfl := Option.some.inj hw; exact reflO as g (List.mem_of_getElem? hg)
termination_by structural t => t
theorem reflL : ∀ (ts : List Ty), ∀ t ∈ ts, Fits t t
  | [], t, h => by cases h
  | a :: ts, t, h => by
    rcases List.mem_cons.1 h with h | h
    · rw [h]; exact Fits.refl a
    · exact reflL ts t h
termination_by structural ts => ts
theorem reflO : ∀ (ts : List (Bytes × Ty)), ∀ t ∈ ts, Fits t.2 t.2
  | [], t, h => by cases h
  | a :: ts, t, h => by
    rcases List.mem_cons.1 h with h | h
    · rw [h]; exact reflP a
    · exact reflO ts t h
termination_by structural ts => ts
theorem reflP : ∀ t : Bytes × Ty, Fits t.2 t.2
  | (_, t) => Fits.refl t
termination_by structural t => t
end

theorem names_get {α β : Type} {gs : List (Bytes × α)} {ws : List (Bytes × β)} (h : gs.map (·.1) = ws.map (·.1)) {i : Nat}
    {g : Bytes × α} (hg : gs[i]? = some g) : ∃ w, ws[i]? = some w ∧ w.1 = g.1 := by
  have h1 : (gs.map (·.1))[i]? = some g.1 := by simp [hg]
  rw [h, List.getElem?_map] at h1
  cases hw : ws[i]? with
  | none => rw [hw] at h1; cases h1
  | some w => rw [hw] at h1; exact ⟨w, rfl, Option.some.inj h1⟩

theorem len_get {α β : Type} {gs : List α} {ws : List β} (h : gs.length = ws.length) {i : Nat} {g : α} (hg : gs[i]? = some g) :
    ∃ w, ws[i]? = some w := by
  have hi : i < gs.length := by
    rcases Nat.lt_or_ge i gs.length with hi | hi
    · exact hi
    · rw [List.getElem?_eq_none hi] at hg; cases hg
  exact ⟨ws[i]'(h ▸ hi), List.getElem?_eq_getElem (h ▸ hi)⟩

theorem Fits.trans {a c : Ty} (h : Fits a c) : ∀ {d : Ty}, Fits c d → Fits a d := by
  induction h with
  | any g => intro d h; cases h; exact .any _
  | bool => intro d h; cases h <;> first | exact .any _ | exact .bool
  | num => intro d h; cases h <;> first | exact .any _ | exact .num
  | str => intro d h; cases h <;> first | exact .any _ | exact .str
  | typ => intro d h; cases h <;> first | exact .any _ | exact .typ
  | list _ ih =>
    intro d h
    cases h with
    | any => exact .any _
    | list h => exact .list (ih h)
  | set _ ih =>
    intro d h
    cases h with
    | any => exact .any _
    | set h => exact .set (ih h)
  | map _ ih =>
    intro d h
    cases h with
    | any => exact .any _
    | map h => exact .map (ih h)
  | tup len each ih =>
    intro d h
    cases h with
    | any => exact .any _
    | tup len' each' =>
      refine .tup (len.trans len') fun i g w hg hw => ?_
      obtain ⟨c, hc⟩ := len_get len hg
      exact ih i g c hg hc (each' i c w hc hw)
  | obj len each ih =>
    intro d h
    cases h with
    | any => exact .any _
    | obj len' each' =>
      refine .obj (len.trans len') fun i g w hg hw => ?_
      obtain ⟨c, hc, _⟩ := names_get len hg
      exact ih i g c hg hc (each' i c w hc hw)

theorem fits_dyn {t : Ty} (h : Fits .dyn t) : t = .dyn := by cases h; rfl

/-! ## Values -/

mutual
theorem whole_iff : ∀ v : V, v.whole = true ↔ ¬ Open v
  | .unk t => by simp only [V.whole]; exact ⟨fun h => (by cases h), fun h => absurd (Open.unk t) h⟩
  | .null _ => ⟨fun _ h => (by cases h), fun _ => rfl⟩
  | .bool _ => ⟨fun _ h => (by cases h), fun _ => rfl⟩
  | .num _ => ⟨fun _ h => (by cases h), fun _ => rfl⟩
  | .str _ => ⟨fun _ h => (by cases h), fun _ => rfl⟩
  | .typ _ => ⟨fun _ h => (by cases h), fun _ => rfl⟩
  | .list e l => by
    simp only [V.whole, wholeL_iff l]
    exact ⟨fun h ho => by cases ho with | list hm ho => exact h _ hm ho, fun h v hm ho => h (.list hm ho)⟩
  | .set e l => by
    simp only [V.whole, wholeL_iff l]
    exact ⟨fun h ho => by cases ho with | set hm ho => exact h _ hm ho, fun h v hm ho => h (.set hm ho)⟩
  | .tup l => by
    simp only [V.whole, wholeL_iff l]
    exact ⟨fun h ho => by cases ho with | tup hm ho => exact h _ hm ho, fun h v hm ho => h (.tup hm ho)⟩
  | .map e l => by
    simp only [V.whole, wholeO_iff l]
    exact ⟨fun h ho => by cases ho with | map hm ho => exact h _ hm ho, fun h v hm ho => h (.map hm ho)⟩
  | .obj l => by
    simp only [V.whole, wholeO_iff l]
    exact ⟨fun h ho => by cases ho with | obj hm ho => exact h _ hm ho, fun h v hm ho => h (.obj hm ho)⟩
termination_by structural v => v
theorem wholeL_iff : ∀ l : List V, wholeL l = true ↔ ∀ v ∈ l, ¬ Open v
  | [] => by simp [wholeL]
  | v :: l => by simp [wholeL, whole_iff v, wholeL_iff l]
termination_by structural l => l
theorem wholeO_iff : ∀ l : List (Bytes × V), wholeO l = true ↔ ∀ p ∈ l, ¬ Open p.2
  | [] => by simp [wholeO]
  | v :: l => by rw [wholeO, Bool.and_eq_true, wholeP_iff v, wholeO_iff l, List.forall_mem_cons]
termination_by structural l => l
theorem wholeP_iff : ∀ p : Bytes × V, wholeP p = true ↔ ¬ Open p.2
  | (_, v) => whole_iff v
termination_by structural p => p
end

mutual
theorem Becomes.refl : ∀ v : V, Becomes v v
  | .unk t => .unk (Fits.refl t)
  | .null t => .null t
  | .bool x => .bool x
  | .num x => .num x
  | .str x => .str x
  | .typ t => .typ t
  | .list e l => .list (Fits.refl e) (fun _ => rfl) rfl fun i v v' h h' => by
    rw [h] at h'; obtain rfl := Option.some.inj h'; exact becomesL l v (List.mem_of_getElem? h)
  | .set e l => .set (l'' := l) (Fits.refl e) (fun _ => ⟨rfl, rfl⟩) rfl (fun i v v' h h' => by
    rw [h] at h'; obtain rfl := Option.some.inj h'; exact becomesL l v (List.mem_of_getElem? h)) (fun _ => Iff.rfl) (Nat.le_refl _)
  | .tup l => .tup rfl fun i v v' h h' => by
    rw [h] at h'; obtain rfl := Option.some.inj h'; exact becomesL l v (List.mem_of_getElem? h)
  | .map e l => .map (Fits.refl e) (fun _ => rfl) rfl fun i v v' h h' => by
    rw [h] at h'; obtain rfl := Option.some.inj h'; exact becomesO l v (List.mem_of_getElem? h)
  | .obj l => .obj rfl fun i v v' h h' => by
    rw [h] at h'; obtain rfl := Option.some.inj h'; exact becomesO l v (List.mem_of_getElem? h)
termination_by structural v => v
theorem becomesL : ∀ (l : List V), ∀ v ∈ l, Becomes v v
  | [], v, h => by cases h
  | a :: l, v, h => by
    rcases List.mem_cons.1 h with h | h
    · rw [h]; exact Becomes.refl a
    · exact becomesL l v h
termination_by structural l => l
theorem becomesO : ∀ (l : List (Bytes × V)), ∀ p ∈ l, Becomes p.2 p.2
  | [], v, h => by cases h
  | a :: l, v, h => by
    rcases List.mem_cons.1 h with h | h
    · rw [h]; exact becomesP a
    · exact becomesO l v h
termination_by structural l => l
theorem becomesP : ∀ p : Bytes × V, Becomes p.2 p.2
  | (_, v) => Becomes.refl v
termination_by structural p => p
end

theorem Becomes.ty {v v' : V} (h : Becomes v v') : Fits v'.ty v.ty := by
  induction h with
  | unk h => exact h
  | null t => exact Fits.refl t
  | bool => exact .bool
  | num => exact .num
  | str => exact .str
  | typ => exact .typ
  | list ty => exact .list ty
  | set ty => exact .set ty
  | map ty => exact .map ty
  | tup len each ih =>
    simp only [V.ty, tysL_eq]
    refine .tup (by simp [len]) fun i g w hg hw => ?_
    rw [List.getElem?_map, Option.map_eq_some_iff] at hg hw
    obtain ⟨a, ha, rfl⟩ := hg
    obtain ⟨c, hc, rfl⟩ := hw
    exact ih i c a hc ha
  | obj names each ih =>
    simp only [V.ty, tysO_eq]
    refine .obj ?_ fun i g w hg hw => ?_
    · rw [List.map_map, List.map_map]; exact names.symm
    rw [List.getElem?_map, Option.map_eq_some_iff] at hg hw
    obtain ⟨a, ha, rfl⟩ := hg
    obtain ⟨c, hc, rfl⟩ := hw
    exact ih i c a hc ha

theorem list_ext {l l' : List V} (len : l.length = l'.length)
    (h : ∀ (i : Nat) (v v' : V), l[i]? = some v → l'[i]? = some v' → v' = v) : l' = l := by
  apply List.ext_getElem? 
  intro i
  cases hl : l[i]? with
  | none => rw [List.getElem?_eq_none_iff] at hl ⊢; omega
  | some v =>
    obtain ⟨v', hv'⟩ := len_get len hl
    rw [hv', h i v v' hl hv']

theorem map_ext {m m' : List (Bytes × V)} (names : m.map (·.1) = m'.map (·.1))
    (h : ∀ (i : Nat) (p p' : Bytes × V), m[i]? = some p → m'[i]? = some p' → p'.2 = p.2) : m' = m := by
  apply List.ext_getElem?
  intro i
  cases hl : m[i]? with
  | none =>
    have := congrArg List.length names
    simp only [List.length_map] at this
    rw [List.getElem?_eq_none_iff] at hl ⊢; omega
  | some v =>
    obtain ⟨v', hv', he⟩ := names_get names hl
    rw [hv', ← Prod.eta v', he, h i v v' hl hv']

/-- What is wholly known stays. -/
theorem Becomes.eq {v v' : V} (h : Becomes v v') : ¬ Open v → v' = v := by
  induction h with
  | unk h => intro h; exact absurd (.unk _) h
  | null | bool | num | str | typ => intro _; rfl
  | list ty same len each ih =>
    intro ho
    have hin : ∀ v ∈ _, ¬ Open v := fun v hm hv => ho (.list hm hv)
    rw [same hin, list_ext len fun i v v' h h' => ih i v v' h h' (hin v (List.mem_of_getElem? h))]
  | set ty same =>
    intro ho
    have hin : ∀ v ∈ _, ¬ Open v := fun v hm hv => ho (.set hm hv)
    rw [(same hin).1, (same hin).2]
  | map ty same names each ih =>
    intro ho
    have hin : ∀ v : Bytes × V, v ∈ _ → ¬ Open v.2 := fun v hm hv => ho (.map hm hv)
    rw [same hin, map_ext names fun i v v' h h' => ih i v v' h h' (hin v (List.mem_of_getElem? h))]
  | tup len each ih =>
    intro ho
    have hin : ∀ v ∈ _, ¬ Open v := fun v hm hv => ho (.tup hm hv)
    rw [list_ext len fun i v v' h h' => ih i v v' h h' (hin v (List.mem_of_getElem? h))]
  | obj names each ih =>
    intro ho
    have hin : ∀ v : Bytes × V, v ∈ _ → ¬ Open v.2 := fun v hm hv => ho (.obj hm hv)
    rw [map_ext names fun i v v' h h' => ih i v v' h h' (hin v (List.mem_of_getElem? h))]

theorem Becomes.known {v v' : V} (h : Becomes v v') (hk : v.known = true) : v'.known = true := by
  cases h <;> first | cases hk; done | rfl

/-! ## Results have the type that was announced -/

theorem ofRes_cases {α : Type} {t : Ty} {f : α → V} {r : Res α} {v : V} (h : ofRes t f r = some v) :
    (r = .ok .unk ∧ v = .unk t) ∨ (r = .ok .null ∧ v = .null t) ∨ ∃ a, r = .ok (.val a) ∧ v = f a := by
  cases r with
  | error => cases h
  | ok k =>
    cases k with
    | unk => exact .inl ⟨rfl, (Option.some.inj h).symm⟩
    | null => exact .inr (.inl ⟨rfl, (Option.some.inj h).symm⟩)
    | val a => exact .inr (.inr ⟨a, rfl, (Option.some.inj h).symm⟩)

theorem allTrue_ne (l : List (K Bool)) : ∀ r, Funcs.allTrueLoop r l ≠ .null := by
  induction l with
  | nil => intro r h; cases h
  | cons k l ih =>
    intro r
    cases k with
    | unk => intro h; cases h
    | null => intro h; cases h
    | val x =>
      simp only [Funcs.allTrueLoop]
      split
      · intro h; cases h
      · exact ih _

theorem anyTrue_ne (l : List (K Bool)) : ∀ r u, Funcs.anyTrueLoop r u l ≠ .null := by
  induction l with
  | nil => intro r u; simp only [Funcs.anyTrueLoop]; split <;> intro h <;> cases h
  | cons k l ih =>
    intro r u
    cases k with
    | unk => exact ih _ _
    | null => exact ih _ _
    | val x =>
      simp only [Funcs.anyTrueLoop]
      split
      · intro h; cases h
      · exact ih _ _

theorem coalesce_ne {α : Type} (e : α → Bool) (l : List (K α)) : Funcs.coalesce e l ≠ .ok .null := by
  induction l with
  | nil => intro h; cases h
  | cons k l ih =>
    cases k with
    | unk => intro h; cases h
    | null => exact ih
    | val x =>
      simp only [Funcs.coalesce]
      split
      · exact ih
      · intro h; cases h

theorem coalesce_mem {α : Type} (e : α → Bool) (l : List (K α)) {a : α} (h : Funcs.coalesce e l = .ok (.val a)) : K.val a ∈ l := by
  induction l with
  | nil => cases h
  | cons k l ih =>
    cases k with
    | unk => cases h
    | null => exact List.mem_cons_of_mem _ (ih h)
    | val x =>
      simp only [Funcs.coalesce] at h
      split at h
      · exact List.mem_cons_of_mem _ (ih h)
      · cases h; exact List.mem_cons_self

theorem index_ne {α : Type} (eq : α → α → Res Bool) (x : α) (l : List α) : ∀ i, Funcs.indexLoop eq x i l ≠ .ok .null := by
  induction l with
  | nil => intro i h; cases h
  | cons v l ih =>
    intro i
    simp only [Funcs.indexLoop]
    split <;> first | exact ih _ | (intro h; cases h)

theorem match_mem {α β : Type} (eq : β → β → Res Bool) (ss : List β) (vs : List α) : ∀ (ks : List β) (acc out : List α),
    Funcs.matchLoop eq ss acc vs ks = .ok (.val out) → ∀ v ∈ out, v ∈ acc ∨ v ∈ vs := by
  induction vs with
  | nil => intro ks acc out h v hv; cases ks <;> (cases h; exact .inl hv)
  | cons a vs ih =>
    intro ks acc out h v hv
    cases ks with
    | nil => cases h; exact .inl hv
    | cons k ks =>
      simp only [Funcs.matchLoop] at h
      split at h
      · cases h
      · cases h
      · cases h; cases hv
      · rcases ih _ _ _ h v hv with h | h
        · rcases List.mem_append.1 h with h | h
          · exact .inl h
          · exact .inr (List.mem_cons.2 (.inl (List.mem_singleton.1 h)))
        · exact .inr (List.mem_cons_of_mem _ h)
      · rcases ih _ _ _ h v hv with h | h
        · exact .inl h
        · exact .inr (List.mem_cons_of_mem _ h)

/-- What the loop of `ListVal` gives. -/
theorem listVal_fold (e : Ty) (l : List V) (h : ∀ v ∈ l, v.ty = e) : ∀ a : Ty, a = .dyn ∨ a = e → (l = [] → a = e) →
    l.foldl joinTy (some a) = some e := by
  induction l with
  | nil => intro a _ h; rw [h rfl]; rfl
  | cons v l ih =>
    intro a ha _
    have hv : v.ty = e := h v List.mem_cons_self
    have ih' := ih (fun v hm => h v (List.mem_cons_of_mem _ hm)) e (.inr rfl) (fun _ => rfl)
    rw [List.foldl_cons]
    have hstep : joinTy (some a) v = some e := by
      have heq : cmp false e v.ty = true := (cmp_eq e v.ty).2 hv
      rcases ha with rfl | rfl
      · exact congrArg some hv
      · unfold joinTy
        split
        · next h => cases h
        · exact congrArg some hv
        · next e' _ h => cases h; rw [if_pos (by rw [heq, Bool.or_true])]
    rw [hstep]; exact ih'

theorem listVal_eq {e : Ty} {l : List V} (h : ∀ v ∈ l, v.ty = e) (hl : l ≠ []) : listVal l = some (.list e l) := by
  cases l with
  | nil => exact absurd rfl hl
  | cons v l =>
    show ((v :: l).foldl joinTy (some .dyn)).map _ = _
    rw [listVal_fold e (v :: l) h .dyn (.inl rfl) (fun h => by cases h)]; rfl

theorem collected_eq {e : Ty} {l : List V} (h : ∀ v ∈ l, v.ty = e) : collected e l = some (.list e l) := by
  cases l with
  | nil => rfl
  | cons v l => exact listVal_eq h (by intro h; cases h)

/-- A good value of the announced type, not null if the function never gives null. -/
def OkV (f : Fn) (T : Ty) (v : V) : Prop := Good v ∧ Fits v.ty T ∧ (neverNull f = true → v.isNull = false)

theorem OkV.unk (f : Fn) (T : Ty) : OkV f T (.unk T) := ⟨.unk T, Fits.refl T, fun _ => rfl⟩

theorem length_ok (x : Ext) {args : List V} {T : Ty} {v : V} (ht : lengthType args = some T) (h : lengthImpl x args T = some v) :
    OkV .length T v := by
  have hT : T = .num := by
    unfold lengthType at ht
    split at ht
    · split at ht <;> cases ht <;> rfl
    · cases ht
  subst hT
  have key : (∃ n, v = int n) ∨ v = .unk .num := by
    unfold lengthImpl at h
    split at h
    · split at h
      · cases h; exact .inr rfl
      · cases h; exact .inl ⟨_, rfl⟩
      · cases h; exact .inl ⟨_, rfl⟩
      · split at h <;> cases h
        · exact .inl ⟨_, rfl⟩
        · exact .inr rfl
      all_goals first
        | (cases h; done)
        | (split at h
           · cases h; exact .inl ⟨_, rfl⟩
           · cases h; exact .inl ⟨_, rfl⟩
           · split at h
             · cases h; exact .inl ⟨_, rfl⟩
             · cases h; exact .inr rfl
           · cases h; exact .inr rfl)
    · cases h
  rcases key with ⟨n, rfl⟩ | rfl
  · exact ⟨.num _, .num, fun _ => rfl⟩
  · exact .unk _ _

theorem allTrue_ok {args : List V} {v : V} (h : allTrueImpl args .bool = some v) : OkV .allTrue .bool v := by
  unfold allTrueImpl at h
  split at h
  · rcases ofRes_cases h with ⟨_, rfl⟩ | ⟨h1, _⟩ | ⟨a, _, rfl⟩
    · exact .unk _ _
    · cases h2 : Funcs.allTrueLoop true (List.map boolK _) with
      | null => exact absurd h2 (allTrue_ne _ _)
      | unk => rw [h2] at h1; cases h1
      | val => rw [h2] at h1; cases h1
    · exact ⟨.bool _, .bool, fun _ => rfl⟩
  · cases h

theorem anyTrue_ok {args : List V} {v : V} (h : anyTrueImpl args .bool = some v) : OkV .anyTrue .bool v := by
  unfold anyTrueImpl at h
  split at h
  · rcases ofRes_cases h with ⟨_, rfl⟩ | ⟨h1, _⟩ | ⟨a, _, rfl⟩
    · exact .unk _ _
    · exact absurd (by injection h1) (anyTrue_ne _ false false)
    · exact ⟨.bool _, .bool, fun _ => rfl⟩
  · cases h

theorem converted_val {x : Ext} {t : Ty} {v r : V} (h : converted x t v = .val r) :
    x.conv v t = some r ∧ r.isNull = false := by
  unfold converted at h
  split at h <;> first | (cases h; done) | skip
  next v' hne1 hne2 heq =>
    cases h
    refine ⟨heq, ?_⟩
    cases r <;> first | rfl | exact absurd rfl (hne2 _)

theorem coalesce_ok {x : Ext} (hx : x.Ok) {args : List V} (hg : ∀ a ∈ args, Good a) {T : Ty} {v : V}
    (h : coalesceImpl x args T = some v) : OkV .coalesce T v := by
  rcases ofRes_cases h with ⟨_, rfl⟩ | ⟨h1, _⟩ | ⟨a, h1, hv⟩
  · exact .unk _ _
  · exact absurd h1 (coalesce_ne _ _)
  · obtain rfl : v = a := hv
    obtain ⟨w, hw, hc⟩ := List.mem_map.1 (coalesce_mem _ _ h1)
    obtain ⟨hc, hn⟩ := converted_val hc
    exact ⟨hx.good w T v (hg w hw) hc, hx.fits w T v (hg w hw) hc, fun _ => hn⟩

theorem index_ok (x : Ext) {args : List V} {v : V} (h : indexImpl x args .num = some v) : OkV .index .num v := by
  have key : ∀ l w, (if l.length = 0 then none else ofRes .num int (Funcs.indexLoop (eqK x) w 0 l)) = some v → OkV .index .num v := by
    intro l w h
    split at h
    · cases h
    · rcases ofRes_cases h with ⟨_, rfl⟩ | ⟨h1, _⟩ | ⟨a, _, rfl⟩
      · exact .unk _ _
      · exact absurd h1 (index_ne _ _ _ _)
      · exact ⟨.num _, .num, fun _ => rfl⟩
  unfold indexImpl at h
  split at h
  · exact key _ _ h
  · exact key _ _ h
  · cases h

theorem get_mem {α : Type} {m : List (Bytes × α)} {k : Bytes} {a : α} (h : GoMap.get? m k = some a) : (k, a) ∈ m := by
  induction m with
  | nil => cases h
  | cons p m ih =>
    obtain ⟨k', a'⟩ := p
    simp only [GoMap.get?] at h
    split at h
    · next hk => cases h; cases hk; exact List.mem_cons_self
    · exact List.mem_cons_of_mem _ (ih h)

theorem get_tys (m : List (Bytes × V)) (k : Bytes) : GoMap.get? (tysO m) k = (GoMap.get? m k).map V.ty := by
  induction m with
  | nil => rfl
  | cons p m ih =>
    obtain ⟨k', a'⟩ := p
    simp only [tysO, tysP, GoMap.get?]
    split
    · rfl
    · exact ih

theorem default_ok {x : Ext} (hx : x.Ok) {rest : List V} (hg : ∀ a ∈ rest, Good a) {T : Ty} {v : V}
    (h : lookupDefault x T rest = some v) : OkV .lookup T v := by
  unfold lookupDefault at h
  split at h
  · exact ⟨hx.good _ _ _ (hg _ List.mem_cons_self) h, hx.fits _ _ _ (hg _ List.mem_cons_self) h, fun h => by cases h⟩
  · cases h

theorem lookup_ok {x : Ext} (hx : x.Ok) {args : List V} (hg : ∀ a ∈ args, Good a) {T : Ty} {v : V}
    (ht : lookupType x args = some T) (h : lookupImpl x args T = some v) : OkV .lookup T v := by
  unfold lookupImpl at h
  split at h
  · next t m s rest =>
    have hrest : ∀ a ∈ rest, Good a := fun a ha => hg a (List.mem_cons_of_mem _ (List.mem_cons_of_mem _ ha))
    split at h
    · next w hw =>
      cases h
      have hgm : Good (.obj m) := hg _ List.mem_cons_self
      have hT : T = v.ty := by
        simp only [lookupType, V.ty, get_tys, hw, Option.map_some] at ht
        split at ht
        · cases ht; rfl
        · cases ht
      cases hgm with
      | obj inner => exact ⟨inner _ (get_mem hw), hT ▸ Fits.refl _, fun h => by cases h⟩
    · exact default_ok hx hrest h
  · next t e m s rest =>
    have hrest : ∀ a ∈ rest, Good a := fun a ha => hg a (List.mem_cons_of_mem _ (List.mem_cons_of_mem _ ha))
    split at h
    · next w hw =>
      cases h
      have hgm : Good (.map e m) := hg _ List.mem_cons_self
      have hT : T = e := by
        simp only [lookupType, V.ty] at ht
        split at ht
        · split at ht
          · cases hc : x.conv _ e with
            | none => rw [hc] at ht; cases ht
            | some => rw [hc] at ht; cases ht; rfl
          · cases ht; rfl
        · cases ht
      cases hgm with
      | map inner types => exact ⟨inner _ (get_mem hw), hT ▸ (types _ (get_mem hw)) ▸ Fits.refl _, fun h => by cases h⟩
    · exact default_ok hx hrest h
  · cases h

theorem matchkeys_ok (x : Ext) {args : List V} (hg : ∀ a ∈ args, Good a) {T : Ty} {v : V}
    (ht : matchkeysType x args = some T) (h : matchkeysImpl x args T = some v) : OkV .matchkeys T v := by
  unfold matchkeysImpl at h
  split at h
  · next e0 values ek keys es search e =>
    have he : e0 = e := by
      simp only [matchkeysType, V.ty] at ht
      cases hc : x.unify [Ty.list ek, Ty.list es] with
      | none => rw [hc] at ht; cases ht
      | some => rw [hc] at ht; cases ht; rfl
    subst he
    have hgv : Good (.list e0 values) := hg _ List.mem_cons_self
    cases hgv with
    | list inner types =>
    have hempty : OkV .matchkeys (.list e0) (.list e0 []) :=
      ⟨.list (fun v h => by cases h) (fun v h => by cases h), Fits.refl _, fun _ => rfl⟩
    split at h
    · cases h
    split at h
    · cases h
    split at h
    · cases h
    split at h
    · cases h
    split at h
    · cases h; exact hempty
    split at h
    · cases h; exact .unk _ _
    split at h
    · cases h
    split at h
    · cases h; exact .unk _ _
    split at h
    · cases h
    split at h
    · next out hout =>
      have hm : ∀ v ∈ out, v ∈ values := fun v hv => by
        rcases match_mem _ _ _ _ _ _ hout v hv with h | h
        · cases h
        · exact h
      rw [collected_eq fun v hv => types v (hm v hv)] at h
      cases h
      exact ⟨.list (fun v hv => inner v (hm v hv)) (fun v hv => types v (hm v hv)), Fits.refl _, fun _ => rfl⟩
    · cases h
  · cases h

theorem one_ok {args : List V} (hg : ∀ a ∈ args, Good a) {T : Ty} {v : V}
    (ht : oneType args = some T) (h : oneImpl args T = some v) : OkV .one T v := by
  unfold oneImpl at h
  split at h
  · next t e l =>
    have hgm : Good (.list e l) := hg _ List.mem_cons_self
    cases ht
    cases hgm with
    | list inner types =>
    split at h
    · cases h; exact ⟨.null _, Fits.refl _, fun h => by cases h⟩
    · cases h
      exact ⟨inner _ List.mem_cons_self, (types _ List.mem_cons_self) ▸ Fits.refl _, fun h => by cases h⟩
    · cases h
  · next t e l =>
    have hgm : Good (.set e l) := hg _ List.mem_cons_self
    cases ht
    cases hgm with
    | set inner types =>
    split at h
    · split at h
      · cases h; exact ⟨.null _, Fits.refl _, fun h => by cases h⟩
      · cases h
        exact ⟨inner _ List.mem_cons_self, (types _ List.mem_cons_self) ▸ Fits.refl _, fun h => by cases h⟩
      · cases h
    · cases h; exact .unk _ _
  · next t l =>
    have hgm : Good (.tup l) := hg _ List.mem_cons_self
    cases hgm with
    | tup inner =>
    split at h
    · cases h; cases ht; exact ⟨.null _, Fits.refl _, fun h => by cases h⟩
    · cases h; cases ht
      exact ⟨inner _ List.mem_cons_self, Fits.refl _, fun h => by cases h⟩
    · cases h
  · cases h

theorem add_ok {a c r : V} (h : add a c = some r) : (∃ n, r = .num n) ∨ r = .unk .num := by
  unfold add at h
  split at h <;> cases h
  · exact .inl ⟨_, rfl⟩
  all_goals exact .inr rfl

theorem sumLoop_ok (x : Ext) (l : List V) : ∀ {s v : V}, OkV .sum .num s → sumLoop x s l = some v → OkV .sum .num v := by
  induction l with
  | nil => intro s v hs h; cases h; exact hs
  | cons a l ih =>
    intro s v hs h
    simp only [sumLoop] at h
    split at h
    · cases h
    · obtain ⟨c, _, h⟩ := Option.bind_eq_some_iff.1 h
      obtain ⟨d, hd, h⟩ := Option.bind_eq_some_iff.1 h
      refine ih ?_ h
      rcases add_ok hd with ⟨n, rfl⟩ | rfl
      · exact ⟨.num _, .num, fun _ => rfl⟩
      · exact .unk _ _

theorem sum_ok {x : Ext} (hx : x.Ok) {args : List V} (hg : ∀ a ∈ args, Good a) {v : V} (h : sumImpl x args .num = some v) :
    OkV .sum .num v := by
  have key : ∀ l : List V, (∀ a ∈ l, Good a) → sumList x l = some v → OkV .sum .num v := by
    intro l hl h
    unfold sumList at h
    split at h
    · cases h
    · split at h
      · cases h; exact .unk _ _
      · split at h
        · cases h
        · next a l _ hn =>
          obtain ⟨c, hc, h⟩ := Option.bind_eq_some_iff.1 h
          have hga := hl a List.mem_cons_self
          exact sumLoop_ok x l ⟨hx.good _ _ _ hga hc, hx.fits _ _ _ hga hc,
            fun _ => (hx.null _ _ _ hc).trans (Bool.eq_false_iff.2 hn)⟩ h
  unfold sumImpl at h
  split at h
  · have hgm := hg _ List.mem_cons_self
    cases hgm with | list inner _ => exact key _ inner h
  · have hgm := hg _ List.mem_cons_self
    cases hgm with | set inner _ => exact key _ inner h
  · have hgm := hg _ List.mem_cons_self
    cases hgm with | tup inner => exact key _ inner h
  · cases h

theorem transpose_ok {args : List V} {v : V} (h : transposeImpl args (.map (.list .str)) = some v) :
    OkV .transpose (.map (.list .str)) v := by
  unfold transposeImpl at h
  split at h
  · split at h
    · cases h; exact .unk _ _
    · obtain ⟨out, _, rfl⟩ := Option.map_eq_some_iff.1 h
      refine ⟨.map (fun p hp => ?_) (fun p hp => ?_), Fits.refl _, fun _ => rfl⟩
      · obtain ⟨q, _, rfl⟩ := List.mem_map.1 hp
        refine .list (fun v hv => ?_) (fun v hv => ?_)
        · obtain ⟨s, _, rfl⟩ := List.mem_map.1 hv; exact .str s
        · obtain ⟨s, _, rfl⟩ := List.mem_map.1 hv; rfl
      · obtain ⟨q, _, rfl⟩ := List.mem_map.1 hp; rfl
  · cases h

theorem impl_ok {x : Ext} (hx : x.Ok) (f : Fn) {args : List V} (hg : ∀ a ∈ args, Good a) {T : Ty} {v : V}
    (ht : (f.spec x).type args = some T) (h : (f.spec x).impl args T = some v) : OkV f T v := by
  cases f with
  | length => exact length_ok x ht h
  | allTrue => cases ht; exact allTrue_ok h
  | anyTrue => cases ht; exact anyTrue_ok h
  | coalesce => exact coalesce_ok hx hg h
  | index => cases ht; exact index_ok x h
  | lookup => exact lookup_ok hx hg ht h
  | matchkeys => exact matchkeys_ok x hg ht h
  | one => exact one_ok hg ht h
  | sum => cases ht; exact sum_ok hx hg h
  | transpose => cases ht; exact transpose_ok h
  | list => cases ht
  | map => cases ht
  | to w =>
    simp only [Fn.spec, toImpl] at h
    split at h
    · exact ⟨hx.good _ _ _ (hg _ List.mem_cons_self) h, hx.fits _ _ _ (hg _ List.mem_cons_self) h, fun h => by cases h⟩
    · cases h
  | typ =>
    cases ht
    simp only [Fn.spec, typImpl] at h
    split at h
    · cases h; exact ⟨.typ _, .typ, fun _ => rfl⟩
    · cases h

/-- What `returnType` gives. -/
theorem returnType_cases {f : FSpec} {args : List V} {T : Ty} {d : Bool} (h : returnType f args = some (T, d)) :
    arity f args.length = true ∧ ((checkArgs f.params f.var args = .dyn ∧ T = .dyn ∧ d = true) ∨
      (checkArgs f.params f.var args = .ok ∧ f.type args = some T ∧ d = false)) := by
  unfold returnType at h
  split at h
  · next ha =>
    refine ⟨ha, ?_⟩
    split at h
    · cases h
    · next hc => cases h; exact .inl ⟨hc, rfl, rfl⟩
    · next hc =>
      obtain ⟨t, ht, he⟩ := Option.map_eq_some_iff.1 h
      cases he
      exact .inr ⟨hc, ht, rfl⟩
  · cases h

theorem notNull_spec (x : Ext) (f : Fn) (h : (f.spec x).notNull = true) : neverNull f = true := by
  cases f <;> first | rfl | cases h

theorem call_ok {x : Ext} (hx : x.Ok) (f : Fn) {args : List V} (hg : ∀ a ∈ args, Good a) :
    call (f.spec x) args = .err ∨
    ∃ v T d, call (f.spec x) args = .ok v ∧ returnType (f.spec x) args = some (T, d) ∧ OkV f T v := by
  unfold call
  cases hr : returnType (f.spec x) args with
  | none => exact .inl rfl
  | some p =>
    obtain ⟨T, d⟩ := p
    cases d with
    | true => exact .inr ⟨_, T, true, rfl, rfl, .unk f T⟩
    | false =>
      obtain ⟨_, ⟨_, _, hd⟩ | ⟨_, ht, _⟩⟩ := returnType_cases hr
      · cases hd
      dsimp only
      split
      · exact .inr ⟨_, T, false, rfl, rfl, .unk f T⟩
      · split
        · exact .inl rfl
        · next v hv =>
          have hok := impl_ok hx f hg ht hv
          rw [if_pos ((cmp_iff T v.ty).2 hok.2.1)]
          have hn : ((f.spec x).notNull && v.isNull) = false := by
            cases hs : (f.spec x).notNull with
            | false => rfl
            | true => rw [hok.2.2 (notNull_spec x f hs)]; rfl
          rw [hn]
          exact .inr ⟨v, T, false, rfl, rfl, hok⟩

end Verif.Typed

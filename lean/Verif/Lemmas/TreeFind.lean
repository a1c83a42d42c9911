import Verif.Lemmas.Tree
/-! Lemmas about edges over time, `FindNode` and `Variables`. -/
set_option linter.unusedSimpArgs false
namespace Verif.Tree
variable {V : Type}

/-! ## Edges are kept by everything except deleting that very edge -/

theorem child_addNode {h : Heap V} (hi : Inv h) {i n h' c x m d} (ha : addNode h i n = some (h', c))
    (hc : Child h x m d) : Child h' x m d := by
  cases hs : h[i]? with
  | none => simp [addNode, hs] at ha
  | some nd =>
    rcases addNode_cases hi hs n with ⟨c', h1, h2⟩ | ⟨h1, h2⟩
    · rw [h2] at ha; cases ha; exact hc
    · rw [h2] at ha; cases ha
      have hlt := lt_of_get hs
      obtain ⟨⟨nx, h3, h4⟩, nd', h5, h6⟩ := hc
      have := lt_of_get h3
      have := lt_of_get h5
      refine ⟨?_, ?_⟩
      · by_cases hx : x = i
        · subst hx
          rw [hs] at h3; cases h3
          exact ⟨_, by rw [get_set_append hlt, if_neg (by omega), if_pos rfl], by simp [h4]⟩
        · exact ⟨nx, by rw [get_set_append hlt, if_neg (by omega), if_neg hx]; exact h3, h4⟩
      · by_cases hd : d = i
        · subst hd
          rw [hs] at h5; cases h5
          exact ⟨{ nd with downs := nd.downs ++ [h.length] }, by rw [get_set_append hlt, if_neg (by omega), if_pos rfl], h6⟩
        · exact ⟨nd', by rw [get_set_append hlt, if_neg (by omega), if_neg hd]; exact h5, h6⟩

theorem child_addNodesLoop {ns : List Bytes} : ∀ {h : Heap V}, Inv h → ∀ {i h' c x m d},
    addNodesLoop h i ns = some (h', c) → Child h x m d → Child h' x m d := by
  induction ns with
  | nil => intro h _ i h' c x m d ha hc; cases ha; exact hc
  | cons n ns ih =>
    intro h hi i h' c x m d ha hc
    simp only [addNodesLoop] at ha
    cases h1 : addNode h i n with
    | none => simp [h1] at ha
    | some p =>
      obtain ⟨h2, c2⟩ := p
      simp only [h1] at ha
      have hlt : i < h.length := by
        cases hs : h[i]? with
        | none => simp [addNode, hs] at h1
        | some nd => exact lt_of_get hs
      obtain ⟨nd, hnd⟩ := get_of_lt hlt
      obtain ⟨h3, c3, h4, h5, _⟩ := hi.addNode hnd n
      rw [h1] at h4; cases h4
      exact ih h5 ha (child_addNode hi h1 hc)

theorem child_set {h : Heap V} {i nd nd' x m d} (hnd : h[i]? = some nd)
    (hn : nd'.name = nd.name) (hk : x = i → d ∈ nd.downs → d ∈ nd'.downs)
    (hc : Child h x m d) : Child (h.set i nd') x m d := by
  have hlt := lt_of_get hnd
  obtain ⟨⟨nx, h3, h4⟩, ndd, h5, h6⟩ := hc
  refine ⟨?_, ?_⟩
  · by_cases hx : x = i
    · subst hx
      rw [hnd] at h3; cases h3
      exact ⟨nd', by rw [get_set hlt, if_pos rfl], hk rfl h4⟩
    · exact ⟨nx, by rw [get_set hlt, if_neg hx]; exact h3, h4⟩
  · by_cases hd : d = i
    · subst hd
      rw [hnd] at h5; cases h5
      exact ⟨nd', by rw [get_set hlt, if_pos rfl], by rw [hn]; exact h6⟩
    · exact ⟨ndd, by rw [get_set hlt, if_neg hd]; exact h5, h6⟩

theorem child_run {h : Heap V} (hi : Inv h) {o : Op V} {h' x m d} (hr : o.run h = some h')
    (hno : ∀ s n, o = .deleteNode s n → ¬ (s = x ∧ n = m)) (hc : Child h x m d) :
    Child h' x m d := by
  have hv := Op.valid_of_run hr
  cases o with
  | newTree n =>
    simp only [Op.run, newTree, Option.some.injEq] at hr
    subst hr
    obtain ⟨⟨nx, h3, h4⟩, ndd, h5, h6⟩ := hc
    have := lt_of_get h3
    have := lt_of_get h5
    exact ⟨⟨nx, by rw [List.getElem?_append_left (by omega)]; exact h3, h4⟩,
      ndd, by rw [List.getElem?_append_left (by omega)]; exact h5, h6⟩
  | addNode s n =>
    simp only [Op.run] at hr
    cases h1 : addNode h s n with
    | none => simp [h1] at hr
    | some p => simp [h1] at hr; subst hr; exact child_addNode hi (c := p.2) h1 hc
  | addNodes s t ns =>
    simp only [Op.run] at hr
    cases h1 : addNodes h s t ns with
    | none => simp [h1] at hr
    | some p =>
      simp [h1] at hr; subst hr
      exact child_addNodesLoop (ns := t :: ns) hi (i := s) (c := p.2)
        (by simpa [addNodesLoop, addNodes] using h1) hc
  | deleteNode s n =>
    obtain ⟨nd, hnd⟩ := get_of_lt hv
    simp only [Op.run, deleteNode_eq hi hnd n, Option.some.injEq] at hr
    subst hr
    refine child_set hnd rfl ?_ hc
    intro hx hd
    have : n ≠ m := fun hnm => hno s n rfl ⟨hx.symm, hnm⟩
    refine List.mem_filter.mpr ⟨hd, ?_⟩
    have h2 := named_iff.mp hc.2
    simp only [decide_eq_true_eq, h2]
    intro he; exact this (Option.some.inj he).symm
  | addItem s k v =>
    obtain ⟨nd, hnd⟩ := get_of_lt hv
    simp only [Op.run, addItem, hnd, Option.some.injEq] at hr
    subst hr
    exact child_set hnd rfl (fun _ hd => hd) hc
  | deleteItem s k =>
    obtain ⟨nd, hnd⟩ := get_of_lt hv
    simp only [Op.run, deleteItem, hnd, Option.some.injEq] at hr
    subst hr
    exact child_set hnd rfl (fun _ hd => hd) hc

theorem child_runAll {ops : List (Op V)} : ∀ {h : Heap V}, Inv h → ∀ {h' x m d},
    runAll h ops = some h' →
    (∀ s n, Op.deleteNode s n ∈ ops → ¬ (s = x ∧ n = m)) → Child h x m d → Child h' x m d := by
  induction ops with
  | nil => intro h _ h' x m d hr _ hc; cases hr; exact hc
  | cons o os ih =>
    intro h hi h' x m d hr hno hc
    simp only [runAll] at hr
    cases h1 : o.run h with
    | none => simp [h1] at hr
    | some h2 =>
      simp only [h1] at hr
      obtain ⟨h3, h4, h5, _⟩ := hi.run (Op.valid_of_run h1)
      rw [h1] at h4; cases h4
      exact ih h5 hr (fun s n hm => hno s n (by simp [hm]))
        (child_run hi h1 (fun s n he => hno s n (by simp [he])) hc)

/-! ## GetNode follows walks -/

theorem Walk.unique {h : Heap V} (hi : Inv h) {i ns j j'} (h1 : Walk h i ns j)
    (h2 : Walk h i ns j') : j = j' := by
  induction h1 with
  | nil => cases h2; rfl
  | cons hc _ ih =>
    cases h2 with
    | cons hc' hw => rw [hi.child_unique hc' hc] at hw; exact ih hw

theorem getNodeLoop_iff {h : Heap V} (hi : Inv h) (ns : List Bytes) : ∀ {i}, i < h.length →
    ∃ r, getNodeLoop h i ns = some r ∧ ∀ j, r = some j ↔ Walk h i ns j := by
  induction ns with
  | nil =>
    intro i _
    refine ⟨some i, rfl, fun j => ⟨fun he => by cases he; exact .nil i, fun hw => by cases hw; rfl⟩⟩
  | cons n ns ih =>
    intro i hlt
    obtain ⟨nd, hnd⟩ := get_of_lt hlt
    obtain ⟨r, h1, h2⟩ := hi.grep_iff hnd n
    simp only [getNodeLoop, hnd, h1]
    cases r with
    | none =>
      refine ⟨none, rfl, fun j => ⟨fun he => (by cases he), fun hw => ?_⟩⟩
      cases hw with
      | cons hc _ => have := (h2 _).mpr hc; cases this
    | some c =>
      have hc := (h2 c).mp rfl
      obtain ⟨nc, h3, _⟩ := hc.2
      obtain ⟨r, h4, h5⟩ := ih (lt_of_get h3)
      refine ⟨r, h4, fun j => ?_⟩
      rw [h5]
      constructor
      · intro hw; exact .cons hc hw
      · intro hw
        cases hw with
        | cons hc' hw => rw [hi.child_unique hc' hc] at hw; exact hw

theorem getNode_iff {h : Heap V} (hi : Inv h) {i} (hlt : i < h.length) (t : Bytes) (ht : t ≠ [])
    (ns : List Bytes) :
    ∃ r, getNode h i t ns = some r ∧ ∀ j, r = some j ↔ Walk h i (t :: ns) j := by
  obtain ⟨r, h1, h2⟩ := getNodeLoop_iff hi (t :: ns) hlt
  refine ⟨r, ?_, h2⟩
  simp only [getNode, if_neg ht]
  simpa [getNodeLoop] using h1

theorem walk_addNodesLoop {ns : List Bytes} : ∀ {h : Heap V}, Inv h → ∀ {i h' c},
    i < h.length → addNodesLoop h i ns = some (h', c) → Walk h' i ns c := by
  induction ns with
  | nil => intro h _ i h' c _ ha; cases ha; exact .nil _
  | cons n ns ih =>
    intro h hi i h' c hlt ha
    obtain ⟨nd, hnd⟩ := get_of_lt hlt
    obtain ⟨h3, c3, h4, h5, h6, _⟩ := hi.addNode hnd n
    simp only [addNodesLoop, h4] at ha
    obtain ⟨nc, h7, _⟩ := h6.2
    exact .cons (child_addNodesLoop h5 ha h6) (ih h5 (lt_of_get h7) ha)

/-! ## FindNode -/

theorem Edge.lt {h : Heap V} (hi : Inv h) {i c} (he : Edge h i c) : i < c ∧ c < h.length := by
  obtain ⟨nd, h1, h2⟩ := he
  obtain ⟨h3, nd', h4, _⟩ := hi.down i nd h1 c h2
  exact ⟨h3, lt_of_get h4⟩

theorem Below.trans {h : Heap V} {i j k} (h1 : Below h i j) (h2 : Below h j k) : Below h i k := by
  induction h1 with
  | child he => exact .deeper he h2
  | deeper he _ ih => exact .deeper he (ih h2)

theorem Occurs.up {h : Heap V} {i c ns j} (he : Edge h i c) (ho : Occurs h c ns j) :
    Occurs h i ns j := by
  cases ho with
  | last hb hn => exact .last (.deeper he hb) hn
  | step hb hn ho => exact .step (.deeper he hb) hn ho

theorem findLoop_sound {h : Heap V} (hi : Inv h) {fuel i n ns}
    (ih : ∀ c, Edge h i c → ∀ ms, h.length < fuel + c + 1 →
      ∃ r, findNodeN fuel h c ms = some r ∧ ∀ j, r = some j → Occurs h c ms j) :
    ∀ items : List Nat, (∀ c ∈ items, Edge h i c) → h.length < fuel + 1 + i + 1 →
      ∃ r, findLoop fuel h items n ns = some r ∧ ∀ j, r = some j → Occurs h i (n :: ns) j := by
  intro items
  induction items with
  | nil => intro _ _; exact ⟨none, by simp [findLoop], by simp⟩
  | cons c items ih2 =>
    intro hc hf
    have hec := hc c (by simp)
    have hlt := hec.lt hi
    obtain ⟨nd, hnd⟩ := get_of_lt hlt.2
    obtain ⟨r2, h1, h2⟩ := ih2 (fun x hx => hc x (by simp [hx])) hf
    rw [findLoop.eq_def]
    simp only [hnd]
    by_cases hn : nd.name = n
    · rw [if_pos hn]
      cases ns with
      | nil =>
        refine ⟨some c, rfl, ?_⟩
        intro j hj; cases hj
        exact .last (.child hec) ⟨nd, hnd, hn⟩
      | cons n' ns =>
        obtain ⟨r, h3, h4⟩ := ih c hec (n' :: ns) (by omega)
        refine ⟨r, h3, fun j hj => ?_⟩
        exact .step (.child hec) ⟨nd, hnd, hn⟩ (h4 j hj)
    · rw [if_neg hn]
      obtain ⟨r, h3, h4⟩ := ih c hec (n :: ns) (by omega)
      rw [h3]
      cases r with
      | some d =>
        refine ⟨some d, rfl, fun j hj => ?_⟩
        exact Occurs.up hec (h4 j hj)
      | none => exact ⟨r2, h1, h2⟩

theorem findNodeN_sound {h : Heap V} (hi : Inv h) : ∀ fuel i, i < h.length →
    h.length < fuel + i + 1 → ∀ names,
    ∃ r, findNodeN fuel h i names = some r ∧ ∀ j, r = some j → Occurs h i names j := by
  intro fuel
  induction fuel with
  | zero => intro i h1 h2; omega
  | succ fuel ih =>
    intro i hlt hf names
    cases names with
    | nil => exact ⟨none, by simp [findNodeN], by simp⟩
    | cons n ns =>
      obtain ⟨nd, hnd⟩ := get_of_lt hlt
      simp only [findNodeN, hnd]
      exact findLoop_sound hi (fun c hc ms hm => ih c (hc.lt hi).2 hm ms) nd.downs
        (fun c hc => ⟨nd, hnd, hc⟩) (by omega)

/-- `Below` from `i` starts at one of its children. -/
theorem below_cases {h : Heap V} {i nd j} (hnd : h[i]? = some nd) (hb : Below h i j) :
    ∃ c ∈ nd.downs, j = c ∨ Below h c j := by
  cases hb with
  | child he =>
    obtain ⟨nd', h1, h2⟩ := he
    rw [hnd] at h1; cases h1
    exact ⟨_, h2, .inl rfl⟩
  | deeper he hb =>
    obtain ⟨nd', h1, h2⟩ := he
    rw [hnd] at h1; cases h1
    exact ⟨_, h2, .inr hb⟩

/-- All but the last name occur on at most one node below `i`. -/
def UniqueBelow (h : Heap V) (i : Nat) (names : List Bytes) : Prop :=
  ∀ n ∈ names.dropLast, ∀ x y, Below h i x → Below h i y → Named h x n → Named h y n → x = y

theorem findLoop_complete {h : Heap V} (hi : Inv h) {fuel i n ns}
    (hu : UniqueBelow h i (n :: ns))
    (ih : ∀ c, Edge h i c → ∀ ms, UniqueBelow h c ms → (∃ j, Occurs h c ms j) →
      ∃ d, findNodeN fuel h c ms = some (some d))
    (htot : ∀ c, Edge h i c → ∀ ms, ∃ r, findNodeN fuel h c ms = some r) {m : Nat}
    (hmn : Named h m n) (hm : ns = [] ∨ ∃ j, Occurs h m ns j) (hmb : Below h i m) :
    ∀ items : List Nat, (∀ c ∈ items, Edge h i c) → (∃ c ∈ items, m = c ∨ Below h c m) →
      ∃ d, findLoop fuel h items n ns = some (some d) := by
  intro items
  induction items with
  | nil => rintro _ ⟨c, hc, _⟩; simp at hc
  | cons c items ih2 =>
    intro hc hex
    have hec := hc c (by simp)
    have hlt := hec.lt hi
    obtain ⟨nd, hnd⟩ := get_of_lt hlt.2
    rw [findLoop.eq_def]
    simp only [hnd]
    by_cases hn : nd.name = n
    · rw [if_pos hn]
      cases ns with
      | nil => exact ⟨c, rfl⟩
      | cons n' ns =>
        have hcm : m = c := hu n (by simp) m c hmb (.child hec) hmn ⟨nd, hnd, hn⟩
        subst hcm
        rcases hm with hm | ⟨j, hj⟩
        · cases hm
        · refine ih m hec (n' :: ns) ?_ ⟨j, hj⟩
          intro a ha x y hx hy h1 h2
          exact hu a (by simp [ha]) x y (.deeper hec hx) (.deeper hec hy) h1 h2
    · rw [if_neg hn]
      obtain ⟨r, hr⟩ := htot c hec (n :: ns)
      rw [hr]
      cases r with
      | some d => exact ⟨d, rfl⟩
      | none =>
        obtain ⟨c', hc', hmc⟩ := hex
        rcases List.mem_cons.mp hc' with hcc | hcc
        · subst hcc
          rcases hmc with rfl | hb
          · obtain ⟨nd', h3, h4⟩ := hmn
            rw [hnd] at h3; cases h3; exact absurd h4 hn
          · have : ∃ j, Occurs h c' (n :: ns) j := by
              cases ns with
              | nil => exact ⟨m, .last hb hmn⟩
              | cons n' ns =>
                rcases hm with hm | ⟨j, hj⟩
                · cases hm
                · exact ⟨j, .step hb hmn hj⟩
            obtain ⟨d, hd⟩ := ih c' hec (n :: ns) (by
              intro a ha x y hx hy h1 h2
              exact hu a ha x y (.deeper hec hx) (.deeper hec hy) h1 h2) this
            rw [hr] at hd; cases hd
        · exact ih2 (fun x hx => hc x (by simp [hx])) ⟨c', hcc, hmc⟩

theorem findNodeN_complete {h : Heap V} (hi : Inv h) : ∀ fuel i, i < h.length →
    h.length < fuel + i + 1 → ∀ names, UniqueBelow h i names → (∃ j, Occurs h i names j) →
    ∃ d, findNodeN fuel h i names = some (some d) := by
  intro fuel
  induction fuel with
  | zero => intro i h1 h2; omega
  | succ fuel ih =>
    intro i hlt hf names hu hex
    cases names with
    | nil => obtain ⟨j, hj⟩ := hex; cases hj
    | cons n ns =>
      obtain ⟨nd, hnd⟩ := get_of_lt hlt
      simp only [findNodeN, hnd]
      obtain ⟨j, hj⟩ := hex
      have key : ∃ m, Below h i m ∧ Named h m n ∧ (ns = [] ∨ ∃ j, Occurs h m ns j) := by
        cases hj with
        | last hb hn => exact ⟨j, hb, hn, .inl rfl⟩
        | step hb hn ho => exact ⟨_, hb, hn, .inr ⟨j, ho⟩⟩
      obtain ⟨m, hb, hn, hm⟩ := key
      refine findLoop_complete hi hu ?_ ?_ hn hm hb nd.downs (fun c hc => ⟨nd, hnd, hc⟩)
        (below_cases hnd hb)
      · intro c hc ms hms hex
        have := hc.lt hi
        exact ih c this.2 (by omega) ms hms hex
      · intro c hc ms
        have := hc.lt hi
        obtain ⟨r, hr, _⟩ := findNodeN_sound hi fuel c this.2 (by omega) ms
        exact ⟨r, hr⟩

/-! ## Variables -/

theorem get_del {m : GoMap Bytes V} {k k' : Bytes} :
    GoMap.get? (GoMap.del m k) k' = if k' = k then none else GoMap.get? m k' := by
  induction m with
  | nil => simp [GoMap.del, GoMap.get?]
  | cons e m ih =>
    obtain ⟨a, v⟩ := e
    simp only [GoMap.del] at ih ⊢
    by_cases h1 : a = k
    · by_cases h2 : k' = k
      · simp_all
      · have : a ≠ k' := by rw [h1]; exact fun h => h2 h.symm
        simp_all [GoMap.get?]
    · by_cases h2 : a = k'
      · have : k' ≠ k := by rw [← h2]; exact h1
        simp_all [GoMap.get?]
      · by_cases h3 : k' = k <;> simp_all [GoMap.get?]

theorem storeItems_get {hash : List (Bytes × CV V)} {data : GoMap Bytes V}
    (hd : (data.map Prod.fst).Nodup) (k : Bytes) :
    GoMap.get? (storeItems hash data) k =
      if k = VAR then GoMap.get? hash k else
      match GoMap.get? data k with
      | some v => some (.item v)
      | none => GoMap.get? hash k := by
  induction data generalizing hash with
  | nil => simp [storeItems, GoMap.get?]
  | cons e data ih =>
    obtain ⟨a, v⟩ := e
    simp only [List.map_cons, List.nodup_cons] at hd
    simp only [storeItems]
    rw [ih hd.2]
    by_cases hk : k = VAR
    · subst hk
      simp only [if_pos]
      by_cases ha : a = VAR
      · simp [ha]
      · simp only [ne_eq, ha, not_false_eq_true, if_true]
        rw [Spec.get_set_ne ha]
    · simp only [if_neg hk, GoMap.get?]
      by_cases hak : a = k
      · subst hak
        have : GoMap.get? data a = none := by
          have h2 : ∀ d : GoMap Bytes V, a ∉ d.map Prod.fst → GoMap.get? d a = none := by
            intro d
            induction d with
            | nil => intro _; rfl
            | cons e d ih3 =>
              intro h3
              simp at h3
              simp only [GoMap.get?]
              rw [if_neg (fun hh => h3.1 hh.symm)]
              exact ih3 (by simpa using h3.2)
          exact h2 data hd.1
        simp only [this, ne_eq, hk, not_false_eq_true, if_true, Spec.get_set_same]
      · simp only [if_neg hak]
        cases hg : GoMap.get? data k with
        | some v => rfl
        | none =>
          by_cases hav : a = VAR
          · simp [hav]
          · simp [hav, Spec.get_set_ne hak]

theorem varLoop_spec {h : Heap V} {fuel} (f : Nat → List (Bytes × CV V))
    (ds : List Nat) (hf : ∀ d ∈ ds, ∃ nd, h[d]? = some nd ∧ variablesN fuel h d = some (f d)) :
    ∀ hash, (ds.map (nameOf h)).Nodup →
    ∃ r, varLoop (variablesN fuel h) h ds hash = some r ∧ ∀ k,
      (∀ d ∈ ds, Named h d k → GoMap.get? r k = some (.obj (f d))) ∧
      ((∀ d ∈ ds, ¬ Named h d k) → GoMap.get? r k = GoMap.get? hash k) := by
  induction ds with
  | nil => intro hash _; exact ⟨hash, by simp [varLoop], by simp⟩
  | cons d ds ih =>
    intro hash hn
    simp only [List.map_cons, List.nodup_cons] at hn
    obtain ⟨nd, h1, h2⟩ := hf d (by simp)
    obtain ⟨r, h3, h4⟩ := ih (fun x hx => hf x (by simp [hx])) (GoMap.set hash nd.name (.obj (f d))) hn.2
    refine ⟨r, by simp [varLoop, h1, h2, h3], fun k => ⟨?_, ?_⟩⟩
    · intro x hx hxk
      rcases List.mem_cons.mp hx with hx | hx
      · subst hx
        have : nd.name = k := by
          obtain ⟨nd', h5, h6⟩ := hxk; rw [h1] at h5; cases h5; exact h6
        subst this
        rw [(h4 nd.name).2, Spec.get_set_same]
        intro y hy hyn
        exact hn.1 (List.mem_map.mpr ⟨y, hy, by rw [named_iff.mp hyn, named_iff.mp hxk]⟩)
      · exact (h4 k).1 x hx hxk
    · intro hno
      rw [(h4 k).2 (fun x hx => hno x (by simp [hx]))]
      apply Spec.get_set_ne
      intro he
      exact hno d (by simp) ⟨nd, h1, he⟩

/-- What `Variables` has to return for a node, given the results for its children. -/
def VarsAt (h : Heap V) (f : Nat → List (Bytes × CV V)) (i : Nat) : Prop :=
  ∀ nd, h[i]? = some nd →
    ∃ base : List (Bytes × CV V),
      (∀ k, k ≠ VAR → ∀ v, GoMap.get? nd.data k = some v → GoMap.get? base k = some (.item v)) ∧
      (∀ k, k = VAR ∨ GoMap.get? nd.data k = none →
        (∀ c, Child h i k c → GoMap.get? base k = some (.obj (f c))) ∧
        ((∀ c, ¬ Child h i k c) → GoMap.get? base k = none)) ∧
      (∀ k, GoMap.get? (f i) k =
        if k = VAR ∧ nd.name = VAR then some (.obj base) else GoMap.get? base k)

theorem variablesN_spec {h : Heap V} (hi : Inv h) : ∃ f : Nat → List (Bytes × CV V),
    (∀ i, i < h.length → ∀ fuel, h.length < fuel + i + 1 → variablesN fuel h i = some (f i)) ∧
    ∀ i, VarsAt h f i := by
  -- all fuels large enough agree
  have agree : ∀ fuel i, i < h.length → h.length < fuel + i + 1 → ∃ r,
      ∀ fuel', h.length < fuel' + i + 1 → variablesN fuel' h i = some r := by
    intro fuel
    induction fuel with
    | zero => intro i h1 h2; omega
    | succ fuel ih =>
      intro i hlt hf
      obtain ⟨nd, hnd⟩ := get_of_lt hlt
      have hch : ∀ d ∈ nd.downs, ∃ r, ∀ fuel', h.length < fuel' + d + 1 →
          variablesN fuel' h d = some r := by
        intro d hd
        have := Edge.lt hi (i := i) (c := d) ⟨nd, hnd, hd⟩
        exact ih d this.2 (by omega)
      classical
      let g : Nat → List (Bytes × CV V) := fun d =>
        if hd : d ∈ nd.downs then (hch d hd).choose else []
      have hg : ∀ d ∈ nd.downs, ∀ fuel', h.length < fuel' + d + 1 →
          variablesN fuel' h d = some (g d) := by
        intro d hd fuel' hf'
        simp only [g, dif_pos hd]
        exact (hch d hd).choose_spec fuel' hf'
      have hloop : ∀ ds : List Nat, (∀ d ∈ ds, d ∈ nd.downs) → ∀ hash, ∃ r, ∀ fuel',
          h.length < fuel' + 1 + i + 1 → varLoop (variablesN fuel' h) h ds hash = some r := by
        intro ds
        induction ds with
        | nil => intro _ hash; exact ⟨hash, fun _ _ => by simp [varLoop]⟩
        | cons d ds ih2 =>
          intro hds hash
          have hd := hds d (by simp)
          have hlt' := Edge.lt hi (i := i) (c := d) ⟨nd, hnd, hd⟩
          obtain ⟨nd', hnd'⟩ := get_of_lt hlt'.2
          obtain ⟨r, hr⟩ := ih2 (fun x hx => hds x (by simp [hx])) (GoMap.set hash nd'.name (.obj (g d)))
          refine ⟨r, fun fuel' hf' => ?_⟩
          simp only [varLoop, hnd', hg d hd fuel' (by omega)]
          exact hr fuel' hf'
      obtain ⟨r, hr⟩ := hloop nd.downs (fun _ hd => hd) []
      refine ⟨if nd.name = VAR then GoMap.set (storeItems r nd.data) VAR (.obj (storeItems r nd.data))
        else storeItems r nd.data, fun fuel' hf' => ?_⟩
      cases fuel' with
      | zero => omega
      | succ fuel' =>
        simp only [variablesN, hnd, hr fuel' (by omega)]
        split <;> rfl
  classical
  let f : Nat → List (Bytes × CV V) := fun i =>
    if hlt : i < h.length then (agree (h.length + 1) i hlt (by omega)).choose else []
  have hf : ∀ i, i < h.length → ∀ fuel, h.length < fuel + i + 1 → variablesN fuel h i = some (f i) := by
    intro i hlt fuel hfu
    simp only [f, dif_pos hlt]
    exact (agree (h.length + 1) i hlt (by omega)).choose_spec fuel hfu
  refine ⟨f, hf, ?_⟩
  intro i nd hnd
  have hlt := lt_of_get hnd
  have hself := hf i hlt (h.length + 1) (by omega)
  simp only [variablesN, hnd] at hself
  obtain ⟨r, hr, hk⟩ := varLoop_spec (h := h) (fuel := h.length) f nd.downs (by
    intro d hd
    have hlt' := Edge.lt hi (i := i) (c := d) ⟨nd, hnd, hd⟩
    obtain ⟨nd', hnd'⟩ := get_of_lt hlt'.2
    exact ⟨nd', hnd', hf d hlt'.2 _ (by omega)⟩) [] (hi.names i nd hnd)
  rw [hr] at hself
  refine ⟨storeItems r nd.data, ?_, ?_, ?_⟩
  · intro k hkv v hv
    rw [storeItems_get (hi.dataNodup i nd hnd), if_neg hkv, hv]
  · intro k hkd
    have hst : GoMap.get? (storeItems r nd.data) k = GoMap.get? r k := by
      rw [storeItems_get (hi.dataNodup i nd hnd)]
      rcases hkd with h1 | h1
      · rw [if_pos h1]
      · rw [h1]; simp
    rw [hst]
    refine ⟨fun c hc => ?_, fun hno => ?_⟩
    · obtain ⟨⟨nd', h1, h2⟩, h3⟩ := hc
      rw [hnd] at h1; cases h1
      exact (hk k).1 c h2 h3
    · rw [(hk k).2]
      · rfl
      · intro d hd hdn; exact hno d ⟨⟨nd, hnd, hd⟩, hdn⟩
  · intro k
    dsimp only at hself
    by_cases hv : nd.name = VAR
    · rw [if_pos hv] at hself
      rw [← Option.some.inj hself]
      by_cases hkv : k = VAR
      · subst hkv; simp [Spec.get_set_same, hv]
      · rw [Spec.get_set_ne (fun hh => hkv hh.symm)]; simp [hkv]
    · rw [if_neg hv] at hself
      rw [← Option.some.inj hself]; simp [hv]

end Verif.Tree

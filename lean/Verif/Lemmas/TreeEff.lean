import Verif.Spec.TreeEff
import Verif.Lemmas.TreeSeq
import Verif.Lemmas.TreeRace
/-!
# Every change happens at once, when the lock is taken
-/
set_option linter.unusedSimpArgs false
set_option linter.unusedVariables false

namespace Verif.TreeAll

/-- The children when the goroutine that holds the lock is done. -/
def after : PC → List Nat → List Nat
  | .appended _ _ child _ _, l => l ++ [child]
  | .shift _ _ j, l => l.eraseIdx j
  | _, l => l

/-- `nd` is node `a` with the changes that are being made. -/
structure AbsNode (s : St) (a : Nat) (nd : Tree.Node Unit) : Prop where
  name : nd.name = (s.node a).name
  data : nd.data = []
  upP : ∀ t p, Pending (s.pc t) p a → nd.up = some p
  up : (∀ t p, ¬ Pending (s.pc t) p a) → nd.up = (s.node a).up
  downsL : ∀ t, (s.node a).lock = some t → nd.downs = after (s.pc t) (s.node a).downs
  downs : (s.node a).lock = none → nd.downs = (s.node a).downs

/-- The tree with the changes that are being made. -/
structure Abs (s : St) (h : H) : Prop where
  len : h.length = s.next
  node : ∀ a, a < s.next → ∃ nd, h[a]? = some nd ∧ AbsNode s a nd

/-- When nobody has a lock, no change is being made. -/
theorem Abs.quiet {s : St} (i : Inv s) {h : H} (ha : Abs s h) (hfree : ∀ p, (s.node p).lock = none) : h = s.heap := by
  apply List.ext_getElem?
  intro a
  rw [heap_get]
  split
  · rename_i hlt
    obtain ⟨nd, h1, h2⟩ := ha.node a hlt
    rw [h1]
    have hno : ∀ t p, ¬ Pending (s.pc t) p a := fun t p hp => by
      have := (i.locks p t).2 hp.holds
      rw [hfree] at this
      cases this
    have e1 := h2.up hno
    have e2 := h2.downs (hfree a)
    have e3 := h2.name
    have e4 := h2.data
    obtain ⟨n, d, u, ds⟩ := nd
    simp only at e1 e2 e3 e4
    subst e1; subst e2; subst e3; subst e4
    rfl
  · rename_i hlt
    exact List.getElem?_eq_none (by rw [ha.len]; omega)

theorem Abs.init {s : St} (hi : s.Init) : Abs s s.heap where
  len := heap_length s
  node a hlt := ⟨_, heap_old hlt, rfl, rfl, fun t p h => (by rw [hi.idle] at h; exact h.elim), fun _ => rfl,
    fun t h => (by rw [hi.free] at h; cases h), fun _ => rfl⟩

/-- Nothing changes in memory, and the goroutine neither has a lock before nor afterwards. -/
theorem Abs.still {s s' : St} (i : Inv s) {h : H} (ha : Abs s h) {t : Nat} {q : PC} (hn : s'.node = s.node) (hx : s'.next = s.next)
    (hpc : s'.pc = upd s.pc t q) (h1 : ∀ a, ¬ Holds (s.pc t) a) (h2 : ∀ a, ¬ Holds q a) : Abs s' h where
  len := ha.len.trans hx.symm
  node a hlt := by
    obtain ⟨nd, e, e1⟩ := ha.node a (hx ▸ hlt)
    have hP : ∀ u p, Pending (s'.pc u) p a ↔ Pending (s.pc u) p a := by
      intro u p
      rw [hpc]
      by_cases hu : u = t
      · subst hu
        rw [upd_same]
        exact ⟨fun h => (h2 _ h.holds).elim, fun h => (h1 _ h.holds).elim⟩
      · rw [upd_other _ _ hu]
    refine ⟨nd, e, ?_, e1.data, fun u p hp => e1.upP u p ((hP u p).1 hp), fun hno => ?_, fun u hu => ?_, fun hf => ?_⟩
    · rw [hn]; exact e1.name
    · rw [hn]; exact e1.up fun u p hp => hno u p ((hP u p).2 hp)
    · rw [hn] at hu ⊢
      have : u ≠ t := fun e => by
        subst e
        exact h1 a ((i.locks a u).1 hu)
      rw [hpc, upd_other _ _ this]
      exact e1.downsL u hu
    · rw [hn] at hf ⊢; exact e1.downs hf

/-- One node changes, whose lock the goroutine has before or afterwards; the children of the tree with all changes stay. -/
theorem Abs.one {s s' : St} (i : Inv s) {h : H} (ha : Abs s h) {t cur : Nat} {q : PC} {n' : Node} (hn : s'.node = upd s.node cur n') (hx : s'.next = s.next)
    (hpc : s'.pc = upd s.pc t q) (h1 : ∀ a, Holds (s.pc t) a → a = cur)
    (hname : n'.name = (s.node cur).name) (hup : n'.up = (s.node cur).up) (hP : ∀ p c, Pending q p c ↔ Pending (s.pc t) p c)
    (hl : n'.lock = some t ∨ n'.lock = none)
    (hd : ∀ l, ((s.node cur).lock = some t → l = after (s.pc t) (s.node cur).downs) → ((s.node cur).lock = none → l = (s.node cur).downs) →
      (n'.lock = some t → l = after q n'.downs) ∧ (n'.lock = none → l = n'.downs)) : Abs s' h where
  len := ha.len.trans hx.symm
  node a hlt := by
    obtain ⟨nd, e, e1⟩ := ha.node a (hx ▸ hlt)
    have hP' : ∀ u p, Pending (s'.pc u) p a ↔ Pending (s.pc u) p a := by
      intro u p
      rw [hpc]
      by_cases hu : u = t
      · subst hu
        rw [upd_same]
        exact hP p a
      · rw [upd_other _ _ hu]
    by_cases hc : a = cur
    · subst hc
      obtain ⟨d1, d2⟩ := hd nd.downs (e1.downsL t) e1.downs
      refine ⟨nd, e, ?_, e1.data, fun u p hp => e1.upP u p ((hP' u p).1 hp), fun hno => ?_, fun u hu => ?_, fun hf => ?_⟩
      · rw [hn, upd_same, hname]; exact e1.name
      · rw [hn, upd_same, hup]; exact e1.up fun u p hp => hno u p ((hP' u p).2 hp)
      · rw [hn, upd_same] at hu ⊢
        have : u = t := by
          rcases hl with hl | hl <;> rw [hl] at hu <;> cases hu
          rfl
        subst this
        rw [hpc, upd_same]
        exact d1 hu
      · rw [hn, upd_same] at hf ⊢
        exact d2 hf
    · have hne : s'.node a = s.node a := by rw [hn, upd_other _ _ hc]
      refine ⟨nd, e, ?_, e1.data, fun u p hp => e1.upP u p ((hP' u p).1 hp), fun hno => ?_, fun u hu => ?_, fun hf => ?_⟩
      · rw [hne]; exact e1.name
      · rw [hne]; exact e1.up fun u p hp => hno u p ((hP' u p).2 hp)
      · rw [hne] at hu ⊢
        have : u ≠ t := fun e => by
          subst e
          exact hc (h1 a ((i.locks a u).1 hu))
        rw [hpc, upd_other _ _ this]
        exact e1.downsL u hu
      · rw [hne] at hf ⊢; exact e1.downs hf

theorem removeFirst_abs {s : St} {h : H} (ha : Abs s h) {n : Bytes} : ∀ {l : List Nat}, (∀ d ∈ l, d < s.next) →
    Tree.removeFirst h l n = some (match l.findIdx? fun d => decide ((s.node d).name = n) with
      | none => l
      | some j => l.eraseIdx j) := by
  intro l
  induction l with
  | nil => intro _; rfl
  | cons d l ih =>
    intro hl
    obtain ⟨nd, e, e1⟩ := ha.node d (hl d (List.mem_cons_self ..))
    unfold Tree.removeFirst
    rw [e, List.findIdx?_cons]
    dsimp only
    rw [e1.name]
    by_cases hn : (s.node d).name = n
    · simp [hn]
    · rw [if_neg hn, ih fun e he => hl e (List.mem_cons_of_mem _ he)]
      dsimp only
      cases l.findIdx? fun d => decide ((s.node d).name = n) <;> simp [hn]

/-- `DeleteNode` on the tree with all changes, by the goroutine that has the lock. -/
theorem delete_abs {s : St} (i : Inv s) {h : H} (ha : Abs s h) {t cur : Nat} {c : Call} {n m : Bytes} {rest : List Bytes} (hpc : s.pc t = .locked c cur m rest)
    (hcur : cur < s.next) :
    Tree.deleteNode h cur n = some (h.modify cur fun nd => { nd with downs := match s.index cur n with
      | none => nd.downs
      | some j => nd.downs.eraseIdx j }) := by
  obtain ⟨nd, e, e1⟩ := ha.node cur hcur
  have hl : (s.node cur).lock = some t := (i.locks cur t).2 (by rw [hpc]; rfl)
  have hd : nd.downs = (s.node cur).downs := by
    rw [e1.downsL t hl, hpc]
    rfl
  unfold Tree.deleteNode
  rw [e]
  dsimp only
  have hr := removeFirst_abs ha (n := n) (l := (s.node cur).downs) fun d hd => (i.kid cur _ d (List.mem_of_mem_take hd)).2.1
  rw [hd, hr]
  dsimp only
  refine congrArg some (set_eq_modify e ?_)
  unfold St.index
  rw [hd]

/-- The new node and its cell are made. -/
theorem Abs.append {s : St} (i : Inv s) {h : H} (ha : Abs s h) {t : Nat} {c : Call} {cur : Nat} {n : Bytes} {rest : List Bytes} (f : Bool)
    (hpc : s.pc t = .locked c cur n rest) (hcur : cur < s.next) :
    ∃ h', (Eff.app cur n).run h = some h' ∧ Abs (s.append t c cur n rest f) h' := by
  refine ⟨_, if_pos (by rw [ha.len]; exact hcur), ?_, fun a hlt => ?_⟩
  · rw [List.length_append, List.length_modify, ha.len]
    rfl
  · have hne : s.next ≠ cur := by omega
    have hpc' : (s.append t c cur n rest f).pc = upd s.pc t (.appended c cur s.next ((s.node cur).target f) rest) := rfl
    have hnode : (s.append t c cur n rest f).node = upd (upd s.node s.next (newNode n)) cur ((s.node cur).append s.next f) := rfl
    have hold : ∀ u p x, Pending (s.pc u) p x → x < s.next := fun u p x hp => ((i.pcs u).pending hp).2.1
    have hnp : ∀ p x, ¬ Pending (s.pc t) p x := fun p x hp => by rw [hpc] at hp; exact hp
    by_cases hnew : a = s.next
    · subst hnew
      refine ⟨⟨n, [], some cur, []⟩, ?_, ?_, rfl, fun u p hp => ?_, fun hno => ?_, fun u hu => ?_, fun hf => ?_⟩
      · rw [List.getElem?_append_right (by rw [List.length_modify, ha.len]; exact Nat.le_refl _), List.length_modify, ha.len, Nat.sub_self]
        rfl
      · rw [hnode, upd_other _ _ hne, upd_same]
        rfl
      · rw [hpc'] at hp
        by_cases hu : u = t
        · subst hu
          rw [upd_same] at hp
          rw [hp.1]
        · rw [upd_other _ _ hu] at hp
          exact absurd (hold _ _ _ hp) (Nat.lt_irrefl _)
      · exact absurd (show Pending ((s.append t c cur n rest f).pc t) cur s.next by rw [hpc', upd_same]; exact ⟨rfl, rfl⟩) (hno t cur)
      · rw [hnode, upd_other _ _ hne, upd_same] at hu
        cases hu
      · rw [hnode, upd_other _ _ hne, upd_same]
        rfl
    · have hlt' : a < s.next := by
        have : a < s.next + 1 := hlt
        omega
      obtain ⟨nd, e, e1⟩ := ha.node a hlt'
      have hP : ∀ u p, Pending ((s.append t c cur n rest f).pc u) p a ↔ Pending (s.pc u) p a := by
        intro u p
        rw [hpc']
        by_cases hu : u = t
        · subst hu
          rw [upd_same]
          exact ⟨fun hp => absurd hp.2.symm hnew, fun hp => absurd hp (hnp p a)⟩
        · rw [upd_other _ _ hu]
      have hget : ((h.modify cur fun nd => { nd with downs := nd.downs ++ [h.length] }) ++ [(⟨n, [], some cur, []⟩ : Tree.Node Unit)])[a]? =
          some (if cur = a then { nd with downs := nd.downs ++ [s.next] } else nd) := by
        rw [List.getElem?_append_left (by rw [List.length_modify, ha.len]; exact hlt'), List.getElem?_modify, e, ha.len]
        simp
      refine ⟨_, hget, ?_⟩
      by_cases hc : cur = a
      · subst hc
        rw [if_pos rfl]
        have hl : (s.node cur).lock = some t := (i.locks cur t).2 (by rw [hpc]; rfl)
        have hd : nd.downs = (s.node cur).downs := by
          rw [e1.downsL t hl, hpc]
          rfl
        refine ⟨?_, e1.data, fun u p hp => e1.upP u p ((hP u p).1 hp), fun hno => ?_, fun u hu => ?_, fun hf => ?_⟩
        · rw [hnode, upd_same, append_name]; exact e1.name
        · rw [hnode, upd_same, append_up]; exact e1.up fun u p hp => hno u p ((hP u p).2 hp)
        · rw [hnode, upd_same, append_lock, hl] at hu
          cases hu
          rw [hnode, upd_same, downs_append (i.len _) (i.arr _), hpc', upd_same]
          show nd.downs ++ [s.next] = (s.node cur).downs ++ [s.next]
          rw [hd]
        · rw [hnode, upd_same, append_lock, hl] at hf
          cases hf
      · rw [if_neg hc]
        have hnode' : (s.append t c cur n rest f).node a = s.node a := by
          rw [hnode, upd_other _ _ (Ne.symm hc), upd_other _ _ hnew]
        refine ⟨?_, e1.data, fun u p hp => e1.upP u p ((hP u p).1 hp), fun hno => ?_, fun u hu => ?_, fun hf => ?_⟩
        · rw [hnode']; exact e1.name
        · rw [hnode']; exact e1.up fun u p hp => hno u p ((hP u p).2 hp)
        · rw [hnode'] at hu ⊢
          have : u ≠ t := fun e => by
            subst e
            have := (i.locks a u).1 hu
            rw [hpc] at this
            exact hc this
          rw [hpc', upd_other _ _ this]
          exact e1.downsL u hu
        · rw [hnode'] at hf ⊢; exact e1.downs hf

theorem hit_shape (s : St) (t : Nat) (c : Call) (d : Nat) (rest : List Bytes) :
    ∃ q, (s.hit t c d rest).pc = upd s.pc t q ∧ (∀ a, ¬ Holds q a) ∧ (s.hit t c d rest).node = s.node ∧ (s.hit t c d rest).next = s.next := by
  cases rest
  · exact ⟨.idle, rfl, fun a h => h, rfl, rfl⟩
  · exact ⟨.look c d _ _, rfl, fun a h => h, rfl, rfl⟩

theorem miss_shape (s : St) (t : Nat) (c : Call) (cur : Nat) (n : Bytes) (rest : List Bytes) :
    ∃ q, (s.miss t c cur n rest).pc = upd s.pc t q ∧ (∀ a, ¬ Holds q a) ∧ (s.miss t c cur n rest).node = s.node ∧ (s.miss t c cur n rest).next = s.next := by
  cases c with
  | add self tag names => exact ⟨.want (.add self tag names) cur n rest, rfl, fun a h => h, rfl, rfl⟩
  | _ => exact ⟨.idle, rfl, fun a h => h, rfl, rfl⟩

theorem begin_shape (s : St) (t : Nat) (c : Call) :
    ∃ q, (s.begin t c).pc = upd s.pc t q ∧ (∀ a, ¬ Holds q a) ∧ (s.begin t c).node = s.node ∧ (s.begin t c).next = s.next := by
  cases c with
  | add self tag names => exact ⟨.look (.add self tag names) self tag names, rfl, fun a h => h, rfl, rfl⟩
  | get self tag names =>
    unfold St.begin
    dsimp only
    split
    · exact ⟨.idle, rfl, fun a h => h, rfl, rfl⟩
    · exact ⟨.look (.get self tag names) self tag names, rfl, fun a h => h, rfl, rfl⟩
  | find self names =>
    unfold St.begin
    dsimp only
    split
    · exact ⟨.idle, rfl, fun a h => h, rfl, rfl⟩
    · exact ⟨.enter (.find self names) self names [], rfl, fun a h => h, rfl, rfl⟩
  | del self name => exact ⟨.want (.del self name) self name [], rfl, fun a h => h, rfl, rfl⟩

theorem findStep_shape (s : St) (t : Nat) (c : Call) (fs : List Frame) :
    ∃ q, (s.findStep t c fs).pc = upd s.pc t q ∧ (∀ a, ¬ Holds q a) ∧ (s.findStep t c fs).node = s.node ∧ (s.findStep t c fs).next = s.next := by
  unfold St.findStep
  cases fs with
  | nil => exact ⟨.idle, rfl, fun a h => h, rfl, rfl⟩
  | cons f fs =>
    dsimp only
    repeat' split
    all_goals exact ⟨_, rfl, fun a h => h, rfl, rfl⟩

/-- **A step makes a change at once, or none.** -/
theorem Abs.step {s s' : St} (i : Inv s) {h : H} (ha : Abs s h) {t : Nat} {k : Call} {f : Bool} (hs : s.step t k f = some s') :
    match s.effect t with
    | none => Abs s' h
    | some e => ∃ h', e.run h = some h' ∧ Abs s' h' := by
  have hp := i.pcs t
  unfold St.step at hs
  unfold St.effect
  cases hpc : s.pc t with
  | idle =>
    rw [hpc] at hs
    dsimp only at hs ⊢
    split at hs
    · cases hs
      obtain ⟨q, e1, e2, e3, e4⟩ := begin_shape s t k
      exact ha.still i e3 e4 e1 (fun a h => by rw [hpc] at h; exact h) e2
    · cases hs
  | look c cur n rest =>
    rw [hpc] at hs
    cases hs
    exact ha.still i rfl rfl rfl (fun a h => by rw [hpc] at h; exact h) (fun a h => h)
  | scan c cur n rest arr len idx =>
    rw [hpc] at hs hp
    dsimp only at hs ⊢
    have h1 : ∀ a, ¬ Holds (s.pc t) a := fun a h => by rw [hpc] at h; exact h
    split at hs
    · split at hs
      · cases hs
        exact ha.still i rfl rfl rfl h1 (fun a h => h)
      · split at hs
        · cases hs
          obtain ⟨q, e1, e2, e3, e4⟩ := hit_shape s t c _ rest
          exact ha.still i e3 e4 e1 h1 e2
        · cases hs
          exact ha.still i rfl rfl rfl h1 (fun a h => h)
    · cases hs
      obtain ⟨q, e1, e2, e3, e4⟩ := miss_shape s t c cur n rest
      exact ha.still i e3 e4 e1 h1 e2
  | want c cur n rest =>
    rw [hpc] at hs
    dsimp only at hs ⊢
    cases hl : (s.node cur).lock with
    | some u => rw [hl] at hs; cases hs
    | none =>
      rw [hl] at hs
      cases hs
      refine ha.one i (n' := { s.node cur with lock := some t }) rfl rfl rfl (fun a h => ?_) rfl rfl (fun p c => ?_) (.inl rfl) (fun l _ h2 => ⟨fun _ => h2 hl, fun h => ?_⟩)
      · rw [hpc] at h; exact h.elim
      · rw [hpc]; exact Iff.rfl
      · cases h
  | locked c cur n rest =>
    rw [hpc] at hs hp
    have hcur : cur < s.next := (i.pcs t).holds_old (by rw [hpc]; rfl)
    have hlock : (s.node cur).lock = some t := (i.locks cur t).2 (by rw [hpc]; rfl)
    cases c with
    | del self name =>
      dsimp only at hs ⊢
      have hdel := delete_abs i ha hpc hcur (n := n)
      refine ⟨_, hdel, ?_⟩
      -- the tree after the removal, seen in the old state
      have hmod : ∀ {s'' : St} {q : PC}, s''.node = s.node → s''.next = s.next → s''.pc = upd s.pc t q → (∀ p c, ¬ Pending q p c) →
          (∀ l, l = (s.node cur).downs → (match s.index cur n with
            | none => l
            | some j => l.eraseIdx j) = after q (s.node cur).downs) →
          Abs s'' (h.modify cur fun nd => { nd with downs := match s.index cur n with
            | none => nd.downs
            | some j => nd.downs.eraseIdx j }) := by
        intro s'' q hn hx hpc' hq hd
        refine ⟨by rw [List.length_modify, ha.len, hx], fun a hlt => ?_⟩
        rw [hx] at hlt
        obtain ⟨nd, e, e1⟩ := ha.node a hlt
        have hP : ∀ u p, Pending (s''.pc u) p a ↔ Pending (s.pc u) p a := by
          intro u p
          rw [hpc']
          by_cases hu : u = t
          · subst hu
            rw [upd_same, hpc]
            exact ⟨fun hh => (hq _ _ hh).elim, fun hh => hh.elim⟩
          · rw [upd_other _ _ hu]
        refine ⟨if cur = a then { nd with downs := match s.index cur n with
            | none => nd.downs
            | some j => nd.downs.eraseIdx j } else nd, by rw [List.getElem?_modify, e]; simp, ?_⟩
        by_cases hc : cur = a
        · subst hc
          rw [if_pos rfl]
          have hds : nd.downs = (s.node cur).downs := by
            rw [e1.downsL t hlock, hpc]
            rfl
          refine ⟨by rw [hn]; exact e1.name, e1.data, fun u p hp => e1.upP u p ((hP u p).1 hp), fun hno => ?_, fun u hu => ?_, fun hf => ?_⟩
          · rw [hn]; exact e1.up fun u p hp => hno u p ((hP u p).2 hp)
          · rw [hn, hlock] at hu
            cases hu
            rw [hn, hpc', upd_same]
            exact hd _ hds
          · rw [hn, hlock] at hf; cases hf
        · rw [if_neg hc]
          refine ⟨by rw [hn]; exact e1.name, e1.data, fun u p hp => e1.upP u p ((hP u p).1 hp), fun hno => ?_, fun u hu => ?_, fun hf => ?_⟩
          · rw [hn]; exact e1.up fun u p hp => hno u p ((hP u p).2 hp)
          · rw [hn] at hu ⊢
            have : u ≠ t := fun e => by
              subst e
              have := (i.locks a u).1 hu
              rw [hpc] at this
              exact hc this
            rw [hpc', upd_other _ _ this]
            exact e1.downsL u hu
          · rw [hn] at hf ⊢; exact e1.downs hf
      cases hj : s.index cur n with
      | none =>
        rw [hj] at hs hmod
        cases hs
        exact hmod rfl rfl rfl (fun p c h => h) (fun l h => h)
      | some j =>
        rw [hj] at hs hmod
        cases hs
        exact hmod rfl rfl rfl (fun p c h => h) (fun l h => by rw [h]; rfl)
    | add self tag names =>
      cases hs
      exact ha.append i f hpc hcur
    | get self tag names => rcases hp with ⟨_, _, _, _, hp, _⟩ | ⟨hp, _⟩ <;> cases hp
    | find self names => rcases hp with ⟨_, _, _, _, hp, _⟩ | ⟨hp, _⟩ <;> cases hp
  | appended c cur child arr rest =>
    rw [hpc] at hs
    cases hs
    obtain ⟨he, _, _⟩ := i.app t _ _ _ _ _ hpc
    have hlock : (s.node cur).lock = some t := (i.locks cur t).2 (by rw [hpc]; rfl)
    refine ha.one i (n' := { s.node cur with arr := arr, len := (s.node cur).len + 1 }) rfl rfl rfl (fun a h => ?_) rfl rfl (fun p c => ?_) (.inl hlock)
      (fun l h1 _ => ⟨fun _ => ?_, fun h => ?_⟩)
    · rw [hpc] at h; exact h.symm
    · rw [hpc]; exact Iff.rfl
    · rw [h1 hlock, hpc]
      show (s.node cur).downs ++ [child] = _
      rw [← he]
      rfl
    · have : (s.node cur).lock = none := h
      rw [hlock] at this; cases this
  | linked c cur child rest =>
    rw [hpc] at hs hp
    cases hs
    have hkid := hp.1
    have hlock : (s.node cur).lock = some t := (i.locks cur t).2 (by rw [hpc]; rfl)
    have hne : cur ≠ child := by have := hkid.1; omega
    have hpc' : ((s.set child { s.node child with up := some cur }).goto t (.unlock c cur (some child) rest)).pc = upd s.pc t (.unlock c cur (some child) rest) := rfl
    refine ⟨ha.len, fun a hlt => ?_⟩
    obtain ⟨nd, e, e1⟩ := ha.node a hlt
    refine ⟨nd, e, ?_⟩
    show AbsNode _ a nd
    have hP : ∀ u p, u ≠ t → (Pending (((s.set child { s.node child with up := some cur }).goto t (.unlock c cur (some child) rest)).pc u) p a ↔ Pending (s.pc u) p a) := by
      intro u p hu
      rw [hpc', upd_other _ _ hu]
    have hT : ∀ p, ¬ Pending (((s.set child { s.node child with up := some cur }).goto t (.unlock c cur (some child) rest)).pc t) p a := by
      intro p h
      rw [hpc', upd_same] at h
      exact h
    have hnode : ∀ x, (((s.set child { s.node child with up := some cur }).goto t (.unlock c cur (some child) rest)).node x) =
        if x = child then { s.node child with up := some cur } else s.node x := fun x => rfl
    have hview : (((s.set child { s.node child with up := some cur }).goto t (.unlock c cur (some child) rest)).node a).name = (s.node a).name ∧
        (((s.set child { s.node child with up := some cur }).goto t (.unlock c cur (some child) rest)).node a).lock = (s.node a).lock ∧
        (((s.set child { s.node child with up := some cur }).goto t (.unlock c cur (some child) rest)).node a).downs = (s.node a).downs := by
      rw [hnode]
      split
      · rename_i hac; subst hac; exact ⟨rfl, rfl, rfl⟩
      · exact ⟨rfl, rfl, rfl⟩
    obtain ⟨v1, v2, v3⟩ := hview
    refine ⟨by rw [v1]; exact e1.name, e1.data, fun u p hp => ?_, fun hno => ?_, fun u hu => ?_, fun hf => ?_⟩
    · by_cases hu : u = t
      · subst hu
        exact absurd hp (hT p)
      · exact e1.upP u p ((hP u p hu).1 hp)
    · by_cases hac : a = child
      · subst hac
        rw [e1.upP t cur (by rw [hpc]; exact ⟨rfl, rfl⟩), hnode, if_pos rfl]
      · rw [hnode, if_neg hac]
        refine e1.up fun u p hp => ?_
        by_cases hu : u = t
        · subst hu
          rw [hpc] at hp
          exact hac hp.2.symm
        · exact hno u p ((hP u p hu).2 hp)
    · rw [v2] at hu
      rw [v3]
      have := e1.downsL u hu
      by_cases hut : u = t
      · subst hut
        rw [hpc', upd_same]
        rw [hpc] at this
        exact this
      · rw [hpc', upd_other _ _ hut]
        exact this
    · rw [v2] at hf
      rw [v3]
      exact e1.downs hf
  | shift c cur j =>
    rw [hpc] at hs
    cases hs
    have hlock : (s.node cur).lock = some t := (i.locks cur t).2 (by rw [hpc]; rfl)
    have hno : ∀ {n' : Node}, n'.lock = (s.node cur).lock → n'.lock = none → False := fun h1 h2 => by
      rw [h1, hlock] at h2; cases h2
    unfold St.shift
    dsimp only
    split
    · rename_i hlt
      refine ha.one i rfl rfl rfl (fun a h => ?_) rfl rfl (fun p c => ?_) (.inl hlock) (fun l h1 _ => ⟨fun _ => ?_, fun h => (hno rfl h).elim⟩)
      · rw [hpc] at h; exact h.symm
      · rw [hpc]; exact Iff.rfl
      · rw [h1 hlock, hpc]
        have hv : ((s.node cur).cells (s.node cur).arr)[j + 1]? = some (((s.node cur).cells (s.node cur).arr).getD (j + 1) 0) := by
          have := Nat.lt_of_lt_of_le hlt (i.len cur)
          simp [List.getD, this]
        have := erase_shift (l := (s.node cur).downs) (j := j) (v := ((s.node cur).cells (s.node cur).arr).getD (j + 1) 0) (by
          unfold Node.downs
          rw [List.getElem?_take, if_pos hlt, hv])
        show (s.node cur).downs.eraseIdx j = List.eraseIdx _ (j + 1)
        rw [← this]
        unfold Node.downs
        dsimp only
        rw [upd_same, take_set]
    · rename_i hlt
      refine ha.one i rfl rfl rfl (fun a h => ?_) rfl rfl (fun p c => ?_) (.inl hlock) (fun l h1 _ => ⟨fun _ => ?_, fun h => (hno rfl h).elim⟩)
      · rw [hpc] at h; exact h.symm
      · rw [hpc]; exact Iff.rfl
      · rw [h1 hlock, hpc]
        have hj : j + 1 = (s.node cur).len := by
          obtain ⟨L, hL, _⟩ := i.cont cur
          obtain ⟨A, x, B, k, _, h2, _, h4, _, h6, _⟩ := i.shifting hpc hL
          rw [List.length_append, List.length_cons] at h6
          omega
        exact take_erase (l := (s.node cur).cells (s.node cur).arr) hj
  | unlock c cur r rest =>
    rw [hpc] at hs
    have hlock : (s.node cur).lock = some t := (i.locks cur t).2 (by rw [hpc]; rfl)
    have fin : ∀ {q : PC} {s' : St}, s'.node = upd s.node cur { s.node cur with lock := none } → s'.next = s.next → s'.pc = upd s.pc t q → (∀ a, ¬ Holds q a) → Abs s' h := by
      intro q s' h1 h2 h3 h4
      refine ha.one i h1 h2 h3 (fun a h => ?_) rfl rfl (fun p c => ⟨fun h => (h4 _ h.holds).elim, fun h => ?_⟩) (.inr rfl) (fun l h1 _ => ⟨fun h => ?_, fun _ => ?_⟩)
      · rw [hpc] at h; exact h.symm
      · rw [hpc] at h; exact h.elim
      · cases h
      · rw [h1 hlock, hpc]
        rfl
    cases r with
    | none =>
      cases hs
      exact fin rfl rfl rfl (fun a h => h)
    | some d =>
      cases hs
      obtain ⟨q, e1, e2, e3, e4⟩ := hit_shape (s.set cur { s.node cur with lock := none }) t c d rest
      exact fin e3 e4 e1 e2
  | enter c d names fs =>
    rw [hpc] at hs
    cases hs
    exact ha.still i rfl rfl rfl (fun a h => by rw [hpc] at h; exact h) (fun a h => h)
  | find c fs =>
    rw [hpc] at hs
    cases hs
    obtain ⟨q, e1, e2, e3, e4⟩ := findStep_shape s t c fs
    exact ha.still i e3 e4 e1 (fun a h => by rw [hpc] at h; exact h) e2
  | panic c => rw [hpc] at hp; exact hp.elim

theorem Abs.run {l : List (Nat × Call × Bool)} : ∀ {s s' : St} {h : H}, Inv s → Abs s h → s.run l = some s' →
    ∃ h', runEffs h ((effects s l).map Prod.snd) = some h' ∧ Abs s' h' := by
  induction l with
  | nil => intro s s' h _ ha hr; cases hr; exact ⟨h, rfl, ha⟩
  | cons e l ih =>
    intro s s' h i ha hr
    obtain ⟨s1, q1, q2⟩ := run_cons hr
    obtain ⟨t, c, f⟩ := e
    have := ha.step i q1
    unfold effects
    dsimp only at q1
    rw [q1]
    cases he : s.effect t with
    | none =>
      rw [he] at this
      exact ih (i.step q1).1 this q2
    | some e =>
      rw [he] at this
      obtain ⟨h1, e1, e2⟩ := this
      obtain ⟨h', e3, e4⟩ := ih (i.step q1).1 e2 q2
      refine ⟨h', ?_, e4⟩
      simp only [List.cons_append, List.nil_append, List.map_cons, runEffs, e1, Option.bind_some]
      exact e3

/-! ## Which call makes the change -/

/-- The deletion that a call is. -/
def delOf : Call → List (Nat × Bytes)
  | .del p n => [(p, n)]
  | _ => []

/-- The deletion that is made by a call that has not returned. -/
def doing : PC → List (Nat × Bytes)
  | .shift c _ _ => delOf c
  | .unlock c _ _ _ => delOf c
  | _ => []

/-- The removal that a change is. -/
def cutOf : Option Eff → List (Nat × Bytes)
  | some (.cut p n) => [(p, n)]
  | _ => []

theorem dels_cons (c : Call) (r : Option Nat) (l : List (Call × Option Nat)) : dels ((c, r) :: l) = delOf c ++ dels l := by
  unfold dels
  rw [List.filterMap_cons]
  cases c <;> rfl

theorem cuts_append (t : Nat) (l l' : List (Nat × Eff)) : cuts t (l ++ l') = cuts t l ++ cuts t l' := List.filterMap_append

/-- One step of a goroutine, seen from its calls. -/
def Flow (s s' : St) (t : Nat) : Prop :=
  (s'.log t = s.log t ∧ doing (s'.pc t) = doing (s.pc t) ++ cutOf (s.effect t) ∧ ∀ c, (s.pc t).call = some c → (s'.pc t).call = some c) ∨
  ∃ c r, s'.log t = (c, r) :: s.log t ∧ s'.pc t = .idle ∧ delOf c = doing (s.pc t) ∧ s.effect t = none ∧ ∀ c', (s.pc t).call = some c' → c' = c

theorem Flow.goto {s s' : St} {t : Nat} {q : PC} (hl : s'.log = s.log) (hp : s'.pc = upd s.pc t q) (hd : doing q = doing (s.pc t) ++ cutOf (s.effect t))
    (hc : ∀ c, (s.pc t).call = some c → q.call = some c) : Flow s s' t := by
  refine .inl ⟨by rw [hl], ?_, fun c h => ?_⟩
  · rw [hp, upd_same]; exact hd
  · rw [hp, upd_same]; exact hc c h

theorem Flow.ret {s s' : St} {t : Nat} {c : Call} {r : Option Nat} (hl : s'.log = upd s.log t ((c, r) :: s.log t)) (hp : s'.pc = upd s.pc t .idle)
    (hd : delOf c = doing (s.pc t)) (he : s.effect t = none) (hc : ∀ c', (s.pc t).call = some c' → c' = c) : Flow s s' t := by
  refine .inr ⟨c, r, ?_, ?_, hd, he, hc⟩
  · rw [hl, upd_same]
  · rw [hp, upd_same]

theorem WayOk.noDel {s : St} {c : Call} {cur : Nat} {n : Bytes} {rest : List Bytes} (h : WayOk s c cur n rest) : delOf c = [] := by
  obtain ⟨_, _, _, _, h | ⟨h, _⟩, _⟩ := h <;> subst h <;> rfl

theorem AddOk.noDel {s : St} {c : Call} {cur : Nat} {n : Bytes} {rest : List Bytes} (h : AddOk s c cur n rest) : delOf c = [] := h.way.noDel

theorem step_flow {s s' : St} (i : Inv s) {t : Nat} {k : Call} {f : Bool} (hs : s.step t k f = some s') : Flow s s' t := by
  have hp := i.pcs t
  unfold St.step at hs
  cases hpc : s.pc t with
  | idle =>
    rw [hpc] at hs
    dsimp only at hs
    have he : s.effect t = none := by unfold St.effect; rw [hpc]
    have hd : doing (s.pc t) = [] := by rw [hpc]; rfl
    have hc : ∀ {P : Call → Prop} c, (s.pc t).call = some c → P c := fun c h => by rw [hpc] at h; cases h
    have go : ∀ {s' : St} {q : PC}, s'.log = s.log → s'.pc = upd s.pc t q → doing q = [] → Flow s s' t :=
      fun h1 h2 h3 => .goto h1 h2 (by rw [hd, he, h3]; rfl) hc
    split at hs
    · cases hs
      cases k with
      | add self tag names => exact go rfl rfl rfl
      | get self tag names =>
        unfold St.begin
        dsimp only
        split
        · exact .ret rfl rfl (by rw [hd]; rfl) he hc
        · exact go rfl rfl rfl
      | find self names =>
        unfold St.begin
        dsimp only
        split
        · exact .ret rfl rfl (by rw [hd]; rfl) he hc
        · exact go rfl rfl rfl
      | del self name => exact go rfl rfl rfl
    · cases hs
  | look c cur n rest =>
    rw [hpc] at hs
    cases hs
    refine .goto rfl rfl ?_ fun c h => ?_
    · unfold St.effect; rw [hpc]; rfl
    · rw [hpc] at h; exact h
  | scan c cur n rest arr len idx =>
    rw [hpc] at hs hp
    dsimp only at hs
    have he : s.effect t = none := by unfold St.effect; rw [hpc]
    have hd : doing (s.pc t) = [] := by rw [hpc]; rfl
    have hc : ∀ c', (s.pc t).call = some c' → c' = c := fun c' h => by rw [hpc] at h; cases h; rfl
    have go : ∀ {s' : St} {q : PC}, s'.log = s.log → s'.pc = upd s.pc t q → doing q = [] → q.call = some c → Flow s s' t :=
      fun h1 h2 h3 h4 => .goto h1 h2 (by rw [hd, he, h3]; rfl) fun c' h => by rw [hc c' h]; exact h4
    split at hs
    · split at hs
      · cases hs
        exact go rfl rfl rfl rfl
      · split at hs
        · cases hs
          cases rest with
          | nil => exact .ret rfl rfl (by rw [hd]; exact hp.1.noDel) he hc
          | cons m rest => exact go rfl rfl rfl rfl
        · cases hs
          exact go rfl rfl rfl rfl
    · cases hs
      obtain ⟨self, tag, names, pre, h | ⟨h, _⟩, _⟩ := hp.1
      · subst h
        exact go (q := .want _ cur n rest) rfl rfl rfl rfl
      · subst h
        exact .ret rfl rfl (by rw [hd]; rfl) he hc
  | want c cur n rest =>
    rw [hpc] at hs
    dsimp only at hs
    cases hl : (s.node cur).lock with
    | some u => rw [hl] at hs; cases hs
    | none =>
      rw [hl] at hs
      cases hs
      refine .goto rfl rfl ?_ fun c h => ?_
      · unfold St.effect; rw [hpc]; rfl
      · rw [hpc] at h; exact h
  | locked c cur n rest =>
    rw [hpc] at hs hp
    have hc : ∀ c', (s.pc t).call = some c' → c' = c := fun c' h => by rw [hpc] at h; cases h; rfl
    cases c with
    | del self name =>
      dsimp only at hs
      have hcut : doing (s.pc t) ++ cutOf (s.effect t) = delOf (.del self name) := by
        rcases hp with ⟨_, _, _, _, hp, _⟩ | ⟨hp, _⟩
        · cases hp
        · cases hp
          unfold St.effect
          rw [hpc]
          rfl
      cases hj : s.index cur n with
      | none =>
        rw [hj] at hs
        cases hs
        exact .goto rfl rfl hcut.symm fun c' h => by rw [hc c' h]; rfl
      | some j =>
        rw [hj] at hs
        cases hs
        exact .goto rfl rfl hcut.symm fun c' h => by rw [hc c' h]; rfl
    | add self tag names =>
      cases hs
      refine .goto rfl rfl ?_ fun c' h => by rw [hc c' h]; rfl
      unfold St.effect; rw [hpc]; rfl
    | get self tag names => rcases hp with ⟨_, _, _, _, hp, _⟩ | ⟨hp, _⟩ <;> cases hp
    | find self names => rcases hp with ⟨_, _, _, _, hp, _⟩ | ⟨hp, _⟩ <;> cases hp
  | appended c cur child arr rest =>
    rw [hpc] at hs
    cases hs
    refine .goto rfl rfl ?_ fun c h => ?_
    · unfold St.effect; rw [hpc]; rfl
    · rw [hpc] at h; exact h
  | linked c cur child rest =>
    rw [hpc] at hs hp
    cases hs
    refine .goto rfl rfl ?_ fun c h => ?_
    · unfold St.effect; rw [hpc]
      exact hp.2.noDel
    · rw [hpc] at h; exact h
  | shift c cur j =>
    rw [hpc] at hs
    cases hs
    have he : s.effect t = none := by unfold St.effect; rw [hpc]
    unfold St.shift
    dsimp only
    split
    · refine .goto rfl rfl ?_ fun c h => ?_
      · rw [he, hpc]; exact (List.append_nil _).symm
      · rw [hpc] at h; exact h
    · refine .goto rfl rfl ?_ fun c h => ?_
      · rw [he, hpc]; exact (List.append_nil _).symm
      · rw [hpc] at h; exact h
  | unlock c cur r rest =>
    rw [hpc] at hs hp
    have he : s.effect t = none := by unfold St.effect; rw [hpc]
    have hc : ∀ c', (s.pc t).call = some c' → c' = c := fun c' h => by rw [hpc] at h; cases h; rfl
    cases r with
    | none =>
      cases hs
      exact .ret rfl rfl (by rw [hpc]; rfl) he hc
    | some d =>
      cases hs
      have hn : delOf c = [] := by
        rcases hp with ⟨_, _, hp, _⟩ | ⟨_, _, _, hp⟩
        · cases hp
        · exact hp.noDel
      cases rest with
      | nil => exact .ret rfl rfl (by rw [hpc]; rfl) he hc
      | cons m rest =>
        refine .goto rfl rfl ?_ fun c' h => by rw [hc c' h]; rfl
        rw [he, hpc]
        show [] = delOf c ++ []
        rw [hn]; rfl
  | enter c d names fs =>
    rw [hpc] at hs
    cases hs
    refine .goto rfl rfl ?_ fun c h => ?_
    · unfold St.effect; rw [hpc]; rfl
    · rw [hpc] at h; exact h
  | find c fs =>
    rw [hpc] at hs hp
    cases hs
    have he : s.effect t = none := by unfold St.effect; rw [hpc]
    have hd : doing (s.pc t) = [] := by rw [hpc]; rfl
    have hc : ∀ c', (s.pc t).call = some c' → c' = c := fun c' h => by rw [hpc] at h; cases h; rfl
    have hn : delOf c = doing (s.pc t) := by
      obtain ⟨_, _, h, _⟩ := hp
      rw [h, hd]; rfl
    unfold St.findStep
    cases fs with
    | nil => exact .ret rfl rfl hn he hc
    | cons f fs =>
      dsimp only
      repeat' split
      all_goals first
        | exact .ret rfl rfl hn he hc
        | exact .goto rfl rfl (by rw [hd, he]; rfl) fun c' h => by rw [hc c' h]; rfl
  | panic c => rw [hpc] at hp; exact hp.elim

theorem log_other {s s' : St} {t : Nat} {c : Call} {f : Bool} (h : s.step t c f = some s') {u : Nat} (hu : u ≠ t) : s'.log u = s.log u := by
  have ret : ∀ (s : St) (k : Call) r, (s.ret t k r).log u = s.log u := fun s k r => upd_other _ _ hu
  have hit : ∀ (s : St) (k : Call) d l, (s.hit t k d l).log u = s.log u := by
    intro s k d l
    cases l
    · exact ret _ _ _
    · rfl
  unfold St.step at h
  split at h
  · split at h
    · cases h
      cases c <;> unfold St.begin <;> dsimp only <;> (try split) <;> first | rfl | exact ret _ _ _
    · cases h
  · cases h; rfl
  · split at h
    · split at h
      · cases h; rfl
      · split at h
        · cases h; exact hit _ _ _ _
        · cases h; rfl
    · cases h
      unfold St.miss
      split
      · rfl
      · exact ret _ _ _
  · split at h
    · cases h; rfl
    · cases h
  · split at h <;> cases h <;> rfl
  · cases h; rfl
  · cases h; rfl
  · cases h; rfl
  · cases h
    unfold St.shift
    dsimp only
    split <;> rfl
  · dsimp only at h
    split at h
    · cases h; exact ret _ _ _
    · cases h; exact hit _ _ _ _
  · cases h; rfl
  · cases h
    unfold St.findStep
    split
    · exact ret _ _ _
    · repeat' split
      all_goals first | rfl | exact ret _ _ _
  · cases h

theorem effects_cons {s s1 : St} {t : Nat} {c : Call} {f : Bool} {l : List (Nat × Call × Bool)} (h : s.step t c f = some s1) :
    effects s ((t, c, f) :: l) = (s.effect t).toList.map (fun e => (t, e)) ++ effects s1 l := by
  rw [effects, h]
  cases s.effect t <;> rfl

theorem cuts_effect (u t : Nat) (o : Option Eff) : cuts u (o.toList.map fun e => (t, e)) = if t = u then cutOf o else [] := by
  cases o with
  | none => exact (ite_self _).symm
  | some e =>
    cases e with
    | app p n => exact (ite_self _).symm
    | cut p n =>
      unfold cuts
      by_cases h : t = u <;> simp [h, cutOf]

/-- The removals of a goroutine are its deletions, in the same order. -/
theorem cuts_run {l : List (Nat × Call × Bool)} {u : Nat} : ∀ {s s' : St}, Inv s → s.run l = some s' →
    (dels (s'.log u)).reverse ++ doing (s'.pc u) = (dels (s.log u)).reverse ++ doing (s.pc u) ++ cuts u (effects s l) := by
  induction l with
  | nil => intro s s' _ hr; cases hr; exact (List.append_nil _).symm
  | cons e l ih =>
    intro s s' i hr
    obtain ⟨s1, q1, q2⟩ := run_cons hr
    obtain ⟨t, c, f⟩ := e
    dsimp only at q1
    rw [ih (i.step q1).1 q2, effects_cons q1, cuts_append, cuts_effect, ← List.append_assoc]
    refine congrArg (· ++ _) ?_
    by_cases hu : t = u
    · subst hu
      rw [if_pos rfl]
      rcases step_flow i q1 with ⟨h1, h2, _⟩ | ⟨k, r, h1, h2, h3, h4, _⟩
      · rw [h1, h2, List.append_assoc]
      · rw [h1, h2, h4, dels_cons, List.reverse_append, ← h3]
        have : (delOf k).reverse = delOf k := by cases k <;> rfl
        rw [this]
        rfl
    · rw [if_neg hu, log_other q1 (Ne.symm hu), step_pc q1 (Ne.symm hu), List.append_nil]

/-- The call that goroutine `t` has made or is making adds a child of the name to the node. -/
def Asked (s : St) (t p : Nat) (n : Bytes) : Prop :=
  ∃ self tag names pre rest, ((s.pc t).call = some (.add self tag names) ∨ ∃ r, (Call.add self tag names, r) ∈ s.log t) ∧
    tag :: names = pre ++ n :: rest ∧ Chain s self pre p

theorem Asked.step {s s' : St} (i : Inv s) {t : Nat} {k : Call} {f : Bool} (hs : s.step t k f = some s') {u p : Nat} {n : Bytes} (h : Asked s u p n) :
    Asked s' u p n := by
  obtain ⟨self, tag, names, pre, rest, h1, h2, h3⟩ := h
  refine ⟨self, tag, names, pre, rest, ?_, h2, h3.grows (i.step hs).2.1⟩
  by_cases hu : u = t
  · subst hu
    rcases step_flow i hs with ⟨e1, _, e2⟩ | ⟨c, r, e1, _, _, _, e2⟩
    · rcases h1 with h1 | ⟨r, h1⟩
      · exact .inl (e2 _ h1)
      · exact .inr ⟨r, by rw [e1]; exact h1⟩
    · rcases h1 with h1 | ⟨r', h1⟩
      · cases e2 _ h1
        exact .inr ⟨r, by rw [e1]; exact List.mem_cons_self ..⟩
      · exact .inr ⟨r', by rw [e1]; exact List.mem_cons_of_mem _ h1⟩
  · rw [log_other hs hu, step_pc hs hu]
    exact h1

theorem asked_run {l : List (Nat × Call × Bool)} : ∀ {s s' : St}, Inv s → s.run l = some s' →
    (∀ u p n, Asked s u p n → Asked s' u p n) ∧ ∀ u p n, (u, Eff.app p n) ∈ effects s l → Asked s' u p n := by
  induction l with
  | nil => intro s s' _ hr; cases hr; exact ⟨fun _ _ _ h => h, fun _ _ _ h => (by cases h)⟩
  | cons e l ih =>
    intro s s' i hr
    obtain ⟨s1, q1, q2⟩ := run_cons hr
    obtain ⟨t, c, f⟩ := e
    dsimp only at q1
    obtain ⟨h1, h2⟩ := ih (i.step q1).1 q2
    refine ⟨fun u p n h => h1 u p n (h.step i q1), fun u p n h => ?_⟩
    rw [effects_cons q1, List.mem_append] at h
    rcases h with h | h
    · refine h1 u p n (Asked.step i q1 ?_)
      rw [List.mem_map] at h
      obtain ⟨e, he, h⟩ := h
      cases h
      have he : s.effect t = some (.app p n) := by simpa using he
      have hp := i.pcs t
      unfold St.effect at he
      split at he
      · cases he
      · rename_i c' p' n' rest hnd hpc
        cases he
        rw [hpc] at hp
        rcases hp with ⟨self, tag, names, pre, e1, e2, e3, _⟩ | ⟨hp, _⟩
        · exact ⟨self, tag, names, pre, rest, .inl (by rw [hpc, e1]; rfl), e2, e3⟩
        · exact (hnd _ _ (by rw [hp])).elim
      · cases he
    · exact h2 u p n h

/-! ## One call after the other -/

theorem grep_none {h : H} {n : Bytes} : ∀ {l : List Nat}, (∀ d ∈ l, d < h.length) → (∀ d ∈ l, ∀ nd, h[d]? = some nd → nd.name ≠ n) →
    Tree.grep h l n = some none := by
  intro l
  induction l with
  | nil => intro _ _; rfl
  | cons d l ih =>
    intro h1 h2
    have hd := List.getElem?_eq_getElem (h1 d (List.mem_cons_self ..))
    unfold Tree.grep
    rw [hd]
    dsimp only
    rw [if_neg (h2 d (List.mem_cons_self ..) _ hd)]
    exact ih (fun e he => h1 e (List.mem_cons_of_mem _ he)) (fun e he => h2 e (List.mem_cons_of_mem _ he))

theorem removeFirst_sub {h : H} {n : Bytes} : ∀ {l r : List Nat}, Tree.removeFirst h l n = some r → r.Sublist l := by
  intro l
  induction l with
  | nil => intro r hr; cases hr; exact List.Sublist.refl _
  | cons d l ih =>
    intro r hr
    unfold Tree.removeFirst at hr
    split at hr
    · cases hr
    · split at hr
      · cases hr; exact List.sublist_cons_self ..
      · split at hr
        · cases hr
        · rename_i e
          cases hr
          exact (ih e).cons_cons _

/-- A change keeps the heap a tree. -/
theorem Eff.deep {h h' : H} (hd : Deep h) {e : Eff} (hr : e.run h = some h') : Deep h' := by
  cases e with
  | app p n =>
    unfold Eff.run at hr
    dsimp only at hr
    split at hr
    · rename_i hp
      cases hr
      intro i nd hi d hdm
      rw [List.length_append, List.length_modify]
      show i < d ∧ d < h.length + 1
      by_cases hlt : i < h.length
      · rw [List.getElem?_append_left (by rw [List.length_modify]; exact hlt), List.getElem?_modify] at hi
        have hg := List.getElem?_eq_getElem hlt
        rw [hg] at hi
        by_cases hpi : p = i
        · simp [hpi] at hi
          subst hi
          rw [List.mem_append] at hdm
          rcases hdm with hdm | hdm
          · have := hd i _ hg d hdm
            omega
          · rw [List.mem_singleton] at hdm
            omega
        · simp [hpi] at hi
          subst hi
          have := hd i _ hg d hdm
          omega
      · rw [List.getElem?_append_right (by rw [List.length_modify]; omega)] at hi
        have := List.mem_of_getElem? hi
        rw [List.mem_singleton] at this
        subst this
        cases hdm
    · cases hr
  | cut p n =>
    have hr : Tree.deleteNode h p n = some h' := hr
    unfold Tree.deleteNode at hr
    split at hr
    · cases hr
    · rename_i nd hp
      split at hr
      · cases hr
      · rename_i ds hds
        cases hr
        intro i nd' hi d hdm
        rw [List.length_set]
        rw [List.getElem?_set] at hi
        split at hi
        · split at hi
          · cases hi
            rename_i e _
            subst e
            exact hd _ _ hp d ((removeFirst_sub hds).subset hdm)
          · cases hi
        · exact hd i nd' hi d hdm

/-- A child is added that is not there: that is `AddNode`. -/
theorem app_eq {h h' : H} (hd : Deep h) {p : Nat} {n : Bytes} (hr : (Eff.app p n).run h = some h') (hno : ¬ HasChild h p n) :
    (Tree.Op.addNode p n).run h = some h' := by
  have hr : (if p < h.length then some ((h.modify p fun nd => { nd with downs := nd.downs ++ [h.length] }) ++ [⟨n, [], some p, []⟩]) else none) = some h' := hr
  split at hr
  · rename_i hp
    have hg := List.getElem?_eq_getElem hp
    have hgrep : Tree.grep h (h[p]).downs n = some none :=
      grep_none (fun d hm => (hd p _ hg d hm).2) fun d hm nd he hn => hno ⟨_, d, nd, hg, hm, he, hn⟩
    show (Tree.addNode h p n).map Prod.fst = some h'
    rw [addNode_eq hg, hgrep, ← hr]
    refine congrArg some ?_
    show push (fresh h n) p h.length = _
    unfold push link fresh
    apply List.ext_getElem?
    intro a
    by_cases ha : a < h.length
    · rw [List.getElem?_append_left (by rw [List.length_modify]; exact ha), List.getElem?_modify, List.getElem?_modify, List.getElem?_modify,
        List.getElem?_append_left ha]
      have : h.length ≠ a := by omega
      cases h[a]? <;> simp [this]
    · rw [List.getElem?_append_right (by rw [List.length_modify]; omega), List.getElem?_modify, List.getElem?_modify,
        List.getElem?_append_right (by omega), List.length_modify]
      have hpa : p ≠ a := by omega
      by_cases e : h.length = a
      · subst e
        simp [hpa]
      · have : a - h.length ≠ 0 := by omega
        obtain ⟨m, hm⟩ := Nat.exists_eq_succ_of_ne_zero this
        simp [hm]
  · cases hr

theorem serial {es : List Eff} : ∀ {h h' : H}, Deep h → runEffs h es = some h' → Apart h es → Tree.runAll h (es.map Eff.op) = some h' := by
  induction es with
  | nil => intro h h' _ hr _; exact hr
  | cons e es ih =>
    intro h h' hd hr ha
    unfold runEffs at hr
    cases he : e.run h with
    | none => rw [he] at hr; cases hr
    | some h1 =>
      rw [he] at hr
      have hop : e.op.run h = some h1 := by
        cases e with
        | app p n => exact app_eq hd he (ha [] p n es rfl h rfl)
        | cut p n => exact he
      simp only [List.map_cons, Tree.runAll, hop]
      refine ih (Eff.deep hd he) hr fun pre p n post e1 h2 e2 => ?_
      refine ha (e :: pre) p n post (by rw [e1]; rfl) h2 ?_
      unfold runEffs
      rw [he]
      exact e2

end Verif.TreeAll

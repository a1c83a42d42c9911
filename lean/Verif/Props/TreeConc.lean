import Verif.Lemmas.TreeConc
/-!
# Properties C10, C11: concurrent use of one tree node (`utils/tree.go`)

A schedule is a list of (goroutine, spare capacity chosen by the allocator); `s.run sched`
is the state after it.  All statements hold for any number of goroutines and any schedule.
-/
set_option linter.unnecessarySimpa false
namespace Verif.TreeConc

/-- `d` is a child of the receiver called `n`. -/
def IsChild (s : St) (n : Bytes) (d : Nat) : Prop :=
  ∃ k, k < s.len ∧ s.mem s.arr k = some d ∧ s.name d = n

/-- An initial state with the given children names (nodes `0, 1, …`), spare capacity `e`
and calls. -/
def initSt (names : List Bytes) (e : Nat) (calls : Nat → Call) : St where
  name k := (names[k]?).getD []
  next := names.length
  mem _ k := if k < names.length then some k else none
  cap _ := names.length + e
  nextArr := 1
  arr := 0
  len := names.length
  lock := none
  pc t := .start (calls t)

theorem initSt_init (names e calls) : (initSt names e calls).Init where
  cells k hk := ⟨k, by simp only [initSt] at hk ⊢; simp [hk], hk⟩
  arr_lt := by simp [initSt]
  free := rfl
  pcs t := ⟨calls t, rfl⟩

/-! ## C10 -/

/-- C10 second half, the full statement: calls with the same name return the same node. -/
def SameNameSameNode : Prop :=
  ∀ (s : St), s.Init → (∀ t m, s.pc t ≠ .start (.del m)) → ∀ sched t u n c d,
    (s.run sched).pc t = .done (.add n) (some c) → (s.run sched).pc u = .done (.add n) (some d) →
    c = d

/-- It is false: both goroutines run `grep` (L57) before either takes the lock (L62). -/
theorem C10_duplicate_children : ¬ SameNameSameNode := by
  intro h
  have := h (initSt [] 0 (fun _ => .add (b "x"))) (initSt_init _ _ _)
    (by intro t m; simp [initSt])
    [(0, 0), (0, 0), (1, 0), (1, 0), (0, 0), (0, 0), (0, 0), (0, 0), (1, 0), (1, 0), (1, 0), (1, 0)]
    0 1 (b "x") 0 1 rfl rfl
  cases this

/-- C10 first half: with any number of concurrent `AddNode` and `GetNode` calls (no
`DeleteNode`), every finished `AddNode(n)` has returned a node, that node is now a child
of the receiver called `n`; the same holds for the nodes returned by `GetNode`.
Missing for the full claim: uniqueness (`C10_duplicate_children`). -/
theorem C10_returned_is_child_partial {s : St} (hi : s.Init)
    (hd : ∀ t m, s.pc t ≠ .start (.del m)) (sched : List (Nat × Nat)) :
    (∀ t n r, (s.run sched).pc t = .done (.add n) r →
      ∃ d, r = some d ∧ IsChild (s.run sched) n d) ∧
    (∀ t n d, (s.run sched).pc t = .done (.get n) (some d) → IsChild (s.run sched) n d) := by
  have h := run_induct (P := AddOnly) (fun s t s' h ht => (h.trans ht).1) sched s (.init hi hd)
  refine ⟨fun t n r hr => ?_, fun t n d hr => ?_⟩
  · have ht := h.thr t
    rw [hr] at ht
    cases r with
    | none => exact absurd rfl (ht.1 n rfl)
    | some d =>
      obtain ⟨⟨k, h1, h2⟩, _, h3⟩ := ht.2 d rfl
      exact ⟨d, rfl, k, h1, h2, h3⟩
  · have ht := h.thr t
    rw [hr] at ht
    obtain ⟨⟨k, h1, h2⟩, _, h3⟩ := ht.2 d rfl
    exact ⟨k, h1, h2, h3⟩

/-- No child is lost or moved while only `AddNode` and `GetNode` run. -/
theorem C10_children_kept {s : St} (hi : s.Init)
    (hd : ∀ t m, s.pc t ≠ .start (.del m)) (sched more : List (Nat × Nat)) :
    ∀ k, k < (s.run sched).len → k < ((s.run sched).run more).len ∧
      ((s.run sched).run more).child k = (s.run sched).child k := by
  have h := run_induct (P := AddOnly) (fun s t s' h ht => (h.trans ht).1) sched s (.init hi hd)
  have h2 := run_induct (P := fun s' => AddOnly s' ∧ Extends (s.run sched) s')
    (fun s1 t s2 h1 ht => ⟨(h1.1.trans ht).1, h1.2.trans (h1.1.trans ht).2⟩) more (s.run sched)
    ⟨h, Nat.le_refl _, fun _ _ => rfl⟩
  intro k hk
  have h3 := Nat.lt_of_lt_of_le hk h2.2.len
  exact ⟨h3, by simp [St.child, hk, h3, h2.2.cells k hk]⟩

example : (initSt [b "a"] 3 (fun t => if t = 0 then .add (b "x") else .get (b "a"))).Init ∧
    ∀ t m, (initSt [b "a"] 3 (fun t => if t = 0 then .add (b "x") else .get (b "a"))).pc t ≠
      .start (.del m) :=
  ⟨initSt_init _ _ _, by intro t m; simp only [initSt]; split <;> simp⟩

/-- At most one goroutine is between `Lock` and `Unlock`, and no interleaving dereferences
a nil child pointer. -/
theorem C10_no_panic {s : St} (hi : s.Init) (sched : List (Nat × Nat)) :
    (∀ t u, ((s.run sched).pc t).crit → ((s.run sched).pc u).crit → t = u) ∧
    ∀ t c, (s.run sched).pc t ≠ .panic c := by
  have h := run_induct (P := Safe) (fun s t s' h ht => h.trans ht) sched s (.init hi)
  refine ⟨fun t u => h.mutex.unique, fun t c hc => ?_⟩
  have := h.thr t
  rw [hc] at this
  exact this

/-! ## C11 -/

/-- C11, the full statement, for one reader and one deleting goroutine. -/
def ReaderFinds : Prop :=
  ∀ (s : St), s.Init → ∀ n d k, s.child k = some d → s.name d = n →
    (∀ t m, s.pc t = .start (.del m) → m ≠ n) →
    ∀ sched t r, (s.run sched).pc t = .done (.get n) r → r = some d

/-- It is false: deleting an earlier sibling shifts the wanted child over the index the
reader has already passed. -/
theorem C11_missed_read : ¬ ReaderFinds := by
  intro h
  have := h (initSt [b "a", b "b", b "c"] 0 (fun t => if t = 0 then .get (b "b") else .del (b "a")))
    (initSt_init _ _ _) (b "b") 1 1 rfl rfl
    (by intro t m; simp only [initSt]; split <;> simp; rintro rfl; decide)
    [(0, 0), (0, 0), (1, 0), (1, 0), (1, 0), (1, 0), (1, 0), (0, 0), (0, 0), (0, 0)] 0 none rfl
  cases this

/-- If no `DeleteNode` call names the wanted child or a sibling standing before it, then
for every interleaving with any other `AddNode`, `DeleteNode` and `GetNode` calls,
`GetNode(n)` and `AddNode(n)` return that child, which also stays where it is.
Missing for the full claim: deletion of earlier siblings (`C11_missed_read`). -/
theorem C11_reader_finds_partial {s : St} (hi : s.Init) {p d : Nat} {n : Bytes}
    (hc : s.child p = some d) (hn : s.name d = n)
    (hfirst : ∀ k d', k < p → s.child k = some d' → s.name d' ≠ n)
    (hdel : ∀ t m, s.pc t = .start (.del m) → ∀ k d', k ≤ p → s.child k = some d' →
      s.name d' ≠ m)
    (sched : List (Nat × Nat)) :
    (∀ t r, (s.run sched).pc t = .done (.get n) r → r = some d) ∧
    (∀ t r, (s.run sched).pc t = .done (.add n) r → r = some d) ∧
    (s.run sched).child p = some d := by
  have hp : p < s.len := by
    simp only [St.child] at hc
    split at hc
    · assumption
    · cases hc
  have hcell : ∀ k, k ≤ p → ∃ d', s.mem s.arr k = some d' ∧ d' < s.next :=
    fun k hk => hi.cells k (by omega)
  let init : Nat → Nat := fun k => (s.mem s.arr k).getD 0
  let nm : Nat → Bytes := fun k => s.name (init k)
  have hinit : ∀ k, k ≤ p → s.mem s.arr k = some (init k) := by
    intro k hk
    obtain ⟨d', h1, _⟩ := hcell k hk
    simp [init, h1]
  have hchild : ∀ k, k ≤ p → s.child k = some (init k) := by
    intro k hk
    simp [St.child, show k < s.len by omega, hinit k hk]
  have hpd : init p = d := by
    have := hchild p (Nat.le_refl _)
    rw [hc] at this; exact (Option.some.inj this).symm
  have h0 : Keeps init nm p s := by
    refine ⟨.init hi, ⟨hp, hinit⟩, fun k hk => ⟨?_, rfl⟩, ?_, ?_, ?_⟩
    · obtain ⟨d', h1, h2⟩ := hcell k hk
      simpa [init, h1] using h2
    · intro k hk
      simp only [nm, hpd, hn]
      exact hfirst k _ hk (hchild k (by omega))
    · intro t m hm k hk
      obtain ⟨c, hc⟩ := hi.pcs t
      rw [hc] at hm
      simp only [PC.call] at hm
      subst hm
      exact hdel t m hc k _ hk (hchild k hk)
    · intro t
      obtain ⟨c, hc⟩ := hi.pcs t
      simp [hc, PC.keeps]
  have h := run_induct (P := Keeps init nm p) (fun s t s' h ht => h.trans ht) sched s h0
  have hnm : nm p = n := by simp only [nm, hpd, hn]
  refine ⟨fun t r hr => ?_, fun t r hr => ?_, ?_⟩
  · have := h.thr t
    rw [hr] at this
    rw [← hpd]; exact this hnm.symm
  · have := h.thr t
    rw [hr] at this
    rw [← hpd]; exact this hnm.symm
  · simp [St.child, h.hdr.len, h.hdr.cells p (Nat.le_refl _), hpd]

-- a reader of `b` concurrent with the deletion of the later `c` and an addition
example : ∃ sched, ((initSt [b "a", b "b", b "c"] 0
    (fun t => if t = 0 then .get (b "b") else if t = 1 then .del (b "c") else .add (b "z"))).run
      sched).pc 0 = .done (.get (b "b")) (some 1) :=
  ⟨[(0, 0), (0, 0), (1, 0), (1, 0), (1, 0), (1, 0), (0, 0), (2, 0)], rfl⟩

/-- Whatever a reader or `AddNode` returns carries the requested name. -/
theorem C11_returned_name {s : St} (hi : s.Init) (sched : List (Nat × Nat)) :
    ∀ t c d, (s.run sched).pc t = .done c (some d) → (s.run sched).name d = c.name := by
  have key := run_induct
    (P := fun s => Safe s ∧ ∀ t, match s.pc t with
      | .done c (some d) => d < s.next ∧ s.name d = c.name
      | .unlock c (some d) => d < s.next ∧ s.name d = c.name
      | .appended c d _ _ => d < s.next ∧ s.name d = c.name
      | _ => True) ?_ sched s ⟨.init hi, ?_⟩
  · intro t c d hc
    have := key.2 t
    rw [hc] at this
    exact this.2
  · rintro s t s' ⟨hs, h⟩ ht
    refine ⟨hs.trans ht, fun u => ?_⟩
    have hnm : ∀ c, c < s.next → c < s'.next ∧ s'.name c = s.name c := by
      intro c hc
      cases ht with
      | loc h => exact ⟨hc, rfl⟩
      | acquire h _ => exact ⟨hc, rfl⟩
      | store h => exact ⟨hc, rfl⟩
      | shrink h _ => exact ⟨hc, rfl⟩
      | release h => exact ⟨hc, rfl⟩
      | shift h _ => exact ⟨hc, rfl⟩
      | inPlace h => exact ⟨Nat.lt_succ_of_lt hc, by simp [upd_ne (show c ≠ s.next by omega)]⟩
      | realloc h => exact ⟨Nat.lt_succ_of_lt hc, by simp [upd_ne (show c ≠ s.next by omega)]⟩
    have hu := h u
    have hsu := hs.thr u
    by_cases hut : u = t
    · subst hut
      cases ht with
      | loc hl =>
        simp only [St.goto, upd_same]
        generalize s.pc u = pp at hu hl hsu
        cases hl with
        | @stutter q => exact hu
        | startDel => trivial
        | startScan h => trivial
        | nilCell h hm => trivial
        | @hit c a l i d h hm hn =>
          obtain ⟨d', h1, h2⟩ := hsu.2 i h
          rw [hm] at h1; cases h1
          exact ⟨h2, hn⟩
        | miss h hm hn => trivial
        | missAdd h => trivial
        | missGet h hc => trivial
        | delNone hf => trivial
        | delSome hf => trivial
        | lockedGet => trivial
      | acquire h _ => simp
      | inPlace h => simp [Call.name]
      | realloc h => simp [Call.name]
      | store h => rw [h] at hu; simpa using hu
      | shift h _ => simp
      | shrink h _ => simp
      | @release c r h => rw [h] at hu; cases r <;> simpa using hu
    · rw [step_other ht hut]
      split at hu
      · obtain ⟨h1, h2⟩ := hnm _ hu.1
        rw [h2]; exact ⟨h1, hu.2⟩
      · obtain ⟨h1, h2⟩ := hnm _ hu.1
        rw [h2]; exact ⟨h1, hu.2⟩
      · obtain ⟨h1, h2⟩ := hnm _ hu.1
        rw [h2]; exact ⟨h1, hu.2⟩
      · trivial
  · intro t
    obtain ⟨c, hc⟩ := hi.pcs t
    simp [hc]

/-- When every call has returned or not started, the mutex is free (no lock is leaked). -/
theorem C10_lock_released {s : St} (hi : s.Init) (sched : List (Nat × Nat))
    (hdone : ∀ t, (∃ c, (s.run sched).pc t = .start c) ∨ ∃ c r, (s.run sched).pc t = .done c r) :
    (s.run sched).lock = none := by
  have h := run_induct (P := Safe) (fun s t s' h ht => h.trans ht) sched s (.init hi)
  cases hl : (s.run sched).lock with
  | none => rfl
  | some t =>
    have := (h.mutex t).mpr hl
    rcases hdone t with ⟨c, hc⟩ | ⟨c, r, hc⟩ <;> rw [hc] at this <;> exact this.elim

/-- A schedule in which two goroutines add and one deletes, all to completion. -/
example :
    let e := (initSt [b "a"] 0 fun t => if t = 0 then Call.add (b "x") else
      if t = 1 then .add (b "y") else .del (b "a")).run
        (List.replicate 8 (0, 1) ++ List.replicate 8 (1, 1) ++ List.replicate 9 (2, 1))
    (∀ t, (∃ c, e.pc t = .start c) ∨ ∃ c r, e.pc t = .done c r) ∧ e.len = 2 ∧
      e.pc 2 = .done (.del (b "a")) none := by
  refine ⟨fun t => ?_, by decide +kernel, by decide +kernel⟩
  match t with
  | 0 => exact .inr ⟨Call.add (b "x"), some 1, by decide +kernel⟩
  | 1 => exact .inr ⟨Call.add (b "y"), some 2, by decide +kernel⟩
  | 2 => exact .inr ⟨Call.del (b "a"), none, by decide +kernel⟩
  | t + 3 => exact .inl ⟨Call.del (b "a"), rfl⟩

theorem run_done {s : St} {t : Nat} {c r} (h : s.pc t = .done c r) :
    ∀ sched : List (Nat × Nat), (∀ e ∈ sched, e.1 = t) → s.run sched = s
  | [], _ => rfl
  | (u, e) :: rest, ht => by
    have hu : u = t := ht (u, e) (by simp)
    subst hu
    have hst : s.step u e = s := by simp only [St.step, h]
    rw [St.run, hst]
    exact run_done h rest fun e he => ht e (by simp [he])

/-- One step of a schedule that only runs `t`. -/
theorem run_step {s s' : St} {t n : Nat} {sched : List (Nat × Nat)} (ht : ∀ e ∈ sched, e.1 = t)
    (hlen : n + 1 ≤ sched.length) (hst : ∀ e, s.step t e = s') :
    ∃ rest : List (Nat × Nat), (∀ e ∈ rest, e.1 = t) ∧ n ≤ rest.length ∧
      s.run sched = s'.run rest := by
  match sched with
  | [] => simp at hlen
  | (u, e) :: rest =>
    have hu : u = t := ht (u, e) (by simp)
    subst hu
    exact ⟨rest, fun e he => ht e (by simp [he]), by simpa using hlen, by rw [St.run, hst]⟩

theorem findIdx_spec' {s : St} {m i} (h : s.findIdx m = some i) :
    i < s.len ∧ ∃ d, s.mem s.arr i = some d ∧ s.name d = m ∧
      ∀ k d', k < i → s.mem s.arr k = some d' → s.name d' ≠ m := by
  obtain ⟨h1, h2⟩ := findIdx_spec h
  cases hd : s.mem s.arr i with
  | none => simp [hd] at h2
  | some d =>
    refine ⟨h1, d, rfl, by simpa [hd] using h2, fun k d' hk hc hn => ?_⟩
    unfold St.findIdx at h
    rw [List.find?_range_eq_some] at h
    have := h.2.2 k hk
    simp [hc, hn] at this

/-- `DeleteNode` alone: whenever it runs without interference, it returns after at most
`len + 4` steps, releases the mutex, and leaves exactly the children other than the first
of that name, in order; without such a child it changes nothing. -/
theorem C11_delete_alone {s : St} {t : Nat} {m : Bytes} (hi : s.Init)
    (hpc : s.pc t = .start (.del m)) (sched : List (Nat × Nat)) (ht : ∀ e ∈ sched, e.1 = t)
    (hlen : s.len + 4 ≤ sched.length) :
    (s.run sched).pc t = .done (.del m) none ∧ (s.run sched).lock = none ∧
    ((∀ k d, s.child k = some d → s.name d ≠ m) → ∀ k, (s.run sched).child k = s.child k) ∧
    (∀ i d, s.child i = some d → s.name d = m →
      (∀ k d', k < i → s.child k = some d' → s.name d' ≠ m) →
      (s.run sched).len = s.len - 1 ∧
      ∀ k, (s.run sched).child k = if k < i then s.child k else s.child (k + 1)) := by
  -- the shift loop, by induction on what is left
  have loop : ∀ n (s : St) (j : Nat) (sched : List (Nat × Nat)), (∀ e ∈ sched, e.1 = t) →
      n + 2 ≤ sched.length → s.len = j + 1 + n → s.pc t = .shifting (.del m) j →
        (s.run sched).pc t = .done (.del m) none ∧ (s.run sched).lock = none ∧
        (s.run sched).len = s.len - 1 ∧ (s.run sched).arr = s.arr ∧
        ∀ k, k < s.len - 1 → (s.run sched).mem s.arr k =
          if k < j then s.mem s.arr k else s.mem s.arr (k + 1) := by
    intro n
    induction n with
    | zero =>
      intro s j sched ht hn hlen hpc
      have h1 : ¬ j + 1 < s.len := by omega
      obtain ⟨sched, ht, hn, e1⟩ := run_step (n := 1) ht (by omega)
        (s := s) (s' := { s with len := s.len - 1, pc := upd s.pc t (.unlock (.del m) none) })
        (fun e => by simp only [St.step, hpc, h1, if_false])
      obtain ⟨sched, ht, hn, e2⟩ := run_step (n := 0) ht (by omega)
        (s := { s with len := s.len - 1, pc := upd s.pc t (.unlock (.del m) none) })
        (s' := { s with len := s.len - 1, lock := none, pc := upd (upd s.pc t (.unlock (.del m) none)) t (.done (.del m) none) })
        (fun e => by simp only [St.step, upd_same])
      rw [e1, e2, run_done (c := .del m) (r := none) (by simp) sched ht]
      refine ⟨by simp, rfl, rfl, rfl, fun k hk => ?_⟩
      rw [if_pos (by omega)]
    | succ n ih =>
      intro s j sched ht hn hlen hpc
      have h1 : j + 1 < s.len := by omega
      obtain ⟨sched, ht, hn, e1⟩ := run_step (n := n + 2) ht (by omega) (s := s)
        (s' := { s with
          mem := upd s.mem s.arr (upd (s.mem s.arr) j (s.mem s.arr (j + 1)))
          pc := upd s.pc t (.shifting (.del m) (j + 1)) })
        (fun e => by simp only [St.step, hpc, h1, if_true])
      obtain ⟨h3, h4, h5, h6, h7⟩ := ih
        { s with mem := upd s.mem s.arr (upd (s.mem s.arr) j (s.mem s.arr (j + 1)))
                 pc := upd s.pc t (.shifting (.del m) (j + 1)) } (j + 1) sched ht hn
        (by show s.len = _; omega) (by simp)
      rw [e1]
      refine ⟨h3, h4, h5, h6, fun k hk => ?_⟩
      rw [h7 k hk]
      simp only [upd_same]
      by_cases hkj : k = j
      · subst hkj
        simp
      · by_cases hlt : k < j
        · rw [if_pos (by omega), if_pos hlt, upd_ne hkj]
        · rw [if_neg (by omega), if_neg hlt, upd_ne (by omega)]
  obtain ⟨sched, ht, hlen, e1⟩ := run_step (n := s.len + 3) ht hlen (s := s)
    (s' := s.goto t (.wantLock (.del m))) (fun e => by simp only [St.step, hpc])
  rw [e1]
  obtain ⟨sched, ht, hlen, e1⟩ := run_step (n := s.len + 2) ht hlen
    (s := s.goto t (.wantLock (.del m)))
    (s' := { s with lock := some t, pc := upd (s.goto t (.wantLock (.del m))).pc t (.locked (.del m)) })
    (fun e => by simp only [St.step, St.goto, upd_same, hi.free, if_true])
  rw [e1]
  generalize hp : upd (s.goto t (.wantLock (.del m))).pc t (.locked (.del m)) = pc
  have hpt : pc t = .locked (.del m) := by rw [← hp]; simp
  have hfi : St.findIdx { s with lock := some t, pc := pc } m = s.findIdx m := rfl
  cases hf : s.findIdx m with
  | none =>
    obtain ⟨sched, ht, hlen, e1⟩ := run_step (n := s.len + 1) ht hlen
      (s := { s with lock := some t, pc := pc })
      (s' := { s with lock := some t, pc := upd pc t (.unlock (.del m) none) })
      (fun e => by simp only [St.step, hpt, hfi, hf]; rfl)
    rw [e1]
    obtain ⟨sched, ht, hlen, e1⟩ := run_step (n := s.len) ht hlen
      (s := { s with lock := some t, pc := upd pc t (.unlock (.del m) none) })
      (s' := { s with lock := none, pc := upd (upd pc t (.unlock (.del m) none)) t (.done (.del m) none) })
      (fun e => by simp only [St.step, upd_same])
    rw [e1, run_done (c := .del m) (r := none) (by simp) sched ht]
    refine ⟨by simp, rfl, fun _ _ => rfl, fun i d hc hn _ => ?_⟩
    exfalso
    simp only [St.findIdx, List.find?_eq_none, List.mem_range] at hf
    simp only [St.child] at hc
    split at hc
    · rename_i hlt
      exact hf i hlt (by simp [hc, hn])
    · cases hc
  | some i =>
    obtain ⟨hi, d, hd, hdn, hbefore⟩ := findIdx_spec' hf
    obtain ⟨sched, ht, hlen, e1⟩ := run_step (n := s.len + 1) ht hlen
      (s := { s with lock := some t, pc := pc })
      (s' := { s with lock := some t, pc := upd pc t (.shifting (.del m) i) })
      (fun e => by simp only [St.step, hpt, hfi, hf]; rfl)
    rw [e1]
    obtain ⟨h3, h4, h5, h6, h7⟩ := loop (s.len - (i + 1))
      { s with lock := some t, pc := upd pc t (.shifting (.del m) i) } i sched ht (by omega)
      (by show s.len = _; omega) (by simp)
    refine ⟨h3, h4, fun hno => ?_, fun i' d' hc hn hfirst => ?_⟩
    · exact absurd hdn (hno i d (by rw [St.child, if_pos hi, hd]))
    · have hii : i' = i := by
        have hc' := hc
        simp only [St.child] at hc'
        split at hc'
        · rename_i hlt
          rcases Nat.lt_trichotomy i' i with h | h | h
          · exact absurd hn (hbefore i' d' h hc')
          · exact h
          · exact absurd hdn (hfirst i d h (by rw [St.child, if_pos hi, hd]))
        · cases hc'
      subst hii
      refine ⟨h5, fun k => ?_⟩
      simp only [St.child, h5, h6]
      by_cases hk : k < s.len - 1
      · rw [if_pos hk, h7 k hk]
        by_cases hki : k < i'
        · rw [if_pos hki, if_pos hki, if_pos (by omega)]
        · rw [if_neg hki, if_neg hki, if_pos (by omega)]
      · rw [if_neg hk]
        by_cases hki : k < i'
        · omega
        · rw [if_neg hki, if_neg (by omega)]

example : (initSt [b "a", b "b", b "c"] 0 (fun _ => .del (b "b"))).pc 0 = .start (.del (b "b")) ∧
    ((initSt [b "a", b "b", b "c"] 0 (fun _ => .del (b "b"))).run
      (List.replicate 7 (0, 0))).child 1 = some 2 := ⟨rfl, by decide +kernel⟩

end Verif.TreeConc

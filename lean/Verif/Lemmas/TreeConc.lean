import Verif.Model.TreeConc
/-! Invariants of the concurrent tree model. -/
set_option linter.unusedSimpArgs false
set_option linter.unusedVariables false
namespace Verif.TreeConc

/-- Program counters at which the goroutine holds the mutex. -/
def PC.crit : PC → Prop
  | .locked _ => True
  | .appended _ _ _ _ => True
  | .shifting _ _ => True
  | .unlock _ _ => True
  | _ => False

/-- The call being executed. -/
def PC.call : PC → Call
  | .start c => c
  | .scan c _ _ _ => c
  | .wantLock c => c
  | .locked c => c
  | .appended c _ _ _ => c
  | .shifting c _ => c
  | .unlock c _ => c
  | .done c _ => c
  | .panic c => c

@[simp] theorem upd_same {α : Type} {f : Nat → α} {k v} : upd f k v k = v := by simp [upd]
theorem upd_ne {α : Type} {f : Nat → α} {k v i} (h : i ≠ k) : upd f k v i = f i := by simp [upd, h]

/-- Steps that only move the program counter. -/
inductive Local (s : St) : PC → PC → Prop
  | stutter {p} : Local s p p
  | startDel {m} : Local s (.start (.del m)) (.wantLock (.del m))
  | startScan {c} (h : ∀ m, c ≠ .del m) : Local s (.start c) (.scan c s.arr s.len 0)
  | nilCell {c a l i} (h : i < l) (hm : s.mem a i = none) : Local s (.scan c a l i) (.panic c)
  | hit {c a l i d} (h : i < l) (hm : s.mem a i = some d) (hn : s.name d = c.name) :
      Local s (.scan c a l i) (.done c (some d))
  | miss {c a l i d} (h : i < l) (hm : s.mem a i = some d) (hn : s.name d ≠ c.name) :
      Local s (.scan c a l i) (.scan c a l (i + 1))
  | missAdd {n a l i} (h : ¬ i < l) : Local s (.scan (.add n) a l i) (.wantLock (.add n))
  | missGet {c a l i} (h : ¬ i < l) (hc : ∀ n, c ≠ .add n) :
      Local s (.scan c a l i) (.done c none)
  | delNone {m} (hf : s.findIdx m = none) : Local s (.locked (.del m)) (.unlock (.del m) none)
  | delSome {m i} (hf : s.findIdx m = some i) : Local s (.locked (.del m)) (.shifting (.del m) i)
  | lockedGet {n} : Local s (.locked (.get n)) (.unlock (.get n) none)

inductive Trans (s : St) (t : Nat) : St → Prop
  | loc {p'} (h : Local s (s.pc t) p') : Trans s t (s.goto t p')
  | acquire {c} (h : s.pc t = .wantLock c) (hl : s.lock = none) :
      Trans s t { s with lock := some t, pc := upd s.pc t (.locked c) }
  | inPlace {n} (h : s.pc t = .locked (.add n)) :
      Trans s t { s with
        name := upd s.name s.next n, next := s.next + 1
        mem := upd s.mem s.arr (upd (s.mem s.arr) s.len (some s.next))
        pc := upd s.pc t (.appended (.add n) s.next s.arr (s.len + 1)) }
  | realloc {n cap'} (h : s.pc t = .locked (.add n)) :
      Trans s t { s with
        name := upd s.name s.next n, next := s.next + 1
        mem := upd s.mem s.nextArr
          (fun k => if k < s.len then s.mem s.arr k else if k = s.len then some s.next else none)
        cap := cap'
        nextArr := s.nextArr + 1
        pc := upd s.pc t (.appended (.add n) s.next s.nextArr (s.len + 1)) }
  | store {c ch a l} (h : s.pc t = .appended c ch a l) :
      Trans s t { s with arr := a, len := l, pc := upd s.pc t (.unlock c (some ch)) }
  | shift {c j} (h : s.pc t = .shifting c j) (hj : j + 1 < s.len) :
      Trans s t { s with
        mem := upd s.mem s.arr (upd (s.mem s.arr) j (s.mem s.arr (j + 1)))
        pc := upd s.pc t (.shifting c (j + 1)) }
  | shrink {c j} (h : s.pc t = .shifting c j) (hj : ¬ j + 1 < s.len) :
      Trans s t { s with len := s.len - 1, pc := upd s.pc t (.unlock c none) }
  | release {c r} (h : s.pc t = .unlock c r) :
      Trans s t { s with lock := none, pc := upd s.pc t (.done c r) }

theorem goto_self (s : St) (t : Nat) : s.goto t (s.pc t) = s := by
  have : upd s.pc t (s.pc t) = s.pc := by funext i; by_cases h : i = t <;> simp [upd, h]
  simp [St.goto, this]

theorem step_trans (s : St) (t e : Nat) : Trans s t (s.step t e) := by
  have stut : Trans s t s := by
    have := Trans.loc (s := s) (t := t) (p' := s.pc t) .stutter
    rwa [goto_self] at this
  have lc : ∀ p p', s.pc t = p → Local s p p' → Trans s t (s.goto t p') := by
    intro p p' hp hl; subst hp; exact .loc hl
  unfold St.step
  split
  · rename_i m hpc; exact lc _ _ hpc .startDel
  · rename_i c hc hpc
    exact lc _ _ hpc (.startScan hc)
  · rename_i c a l i hpc
    split
    · rename_i hlt
      split
      · rename_i hm; exact lc _ _ hpc (.nilCell hlt hm)
      · rename_i d hm
        split
        · rename_i hn; exact lc _ _ hpc (.hit hlt hm hn)
        · rename_i hn; exact lc _ _ hpc (.miss hlt hm hn)
    · rename_i hlt
      split
      · rename_i n; exact lc _ _ hpc (.missAdd hlt)
      · rename_i c hc; exact lc _ _ hpc (.missGet hlt hc)
  · rename_i c hpc
    split
    · rename_i hl; exact .acquire hpc hl
    · exact stut
  · rename_i n hpc
    unfold St.append
    dsimp only
    split
    · exact .inPlace hpc
    · exact .realloc hpc
  · rename_i m hpc
    split
    · rename_i hf; exact lc _ _ hpc (.delNone hf)
    · rename_i i hf; exact lc _ _ hpc (.delSome hf)
  · rename_i c h1 h2 hpc
    cases c with
    | add n => exact absurd rfl (h1 n)
    | del n => exact absurd rfl (h2 n)
    | get n => exact lc _ _ hpc .lockedGet
  · rename_i c ch a l hpc; exact .store hpc
  · rename_i c j hpc
    split
    · rename_i hj; exact .shift hpc hj
    · rename_i hj; exact .shrink hpc hj
  · rename_i c r hpc; exact .release hpc
  · exact stut
  · exact stut

theorem Local.call {s p p'} (h : Local s p p') : p'.call = p.call := by cases h <;> rfl

theorem Trans.call {s t s'} (h : Trans s t s') (u : Nat) : (s'.pc u).call = (s.pc u).call := by
  by_cases hu : u = t
  · subst hu
    cases h with
    | loc h => simp [St.goto, h.call]
    | acquire h _ => simp [h, PC.call]
    | inPlace h => simp [h, PC.call]
    | realloc h => simp [h, PC.call]
    | store h => simp [h, PC.call]
    | shift h _ => simp [h, PC.call]
    | shrink h _ => simp [h, PC.call]
    | release h => simp [h, PC.call]
  · cases h <;> simp [St.goto, upd_ne hu]

/-! ## Mutual exclusion -/

def Mutex (s : St) : Prop := ∀ t, (s.pc t).crit ↔ s.lock = some t

theorem Local.crit {s p p'} (h : Local s p p') : p'.crit ↔ p.crit := by cases h <;> simp [PC.crit]

theorem Mutex.trans {s t s'} (hm : Mutex s) (h : Trans s t s') : Mutex s' := by
  intro u
  have ht := hm t
  have hu := hm u
  by_cases hut : u = t
  · subst hut
    cases h with
    | loc h => simp [St.goto, h.crit, hu]
    | acquire h _ => simp [PC.crit]
    | inPlace h => rw [h] at hu; simpa [PC.crit] using hu
    | realloc h => rw [h] at hu; simpa [PC.crit] using hu
    | store h => rw [h] at hu; simpa [PC.crit] using hu
    | shift h _ => rw [h] at hu; simpa [PC.crit] using hu
    | shrink h _ => rw [h] at hu; simpa [PC.crit] using hu
    | release h => simp [PC.crit]
  · have e : s'.pc u = s.pc u := by cases h <;> simp [St.goto, upd_ne hut]
    rw [e, hu]
    cases h with
    | loc h => simp [St.goto]
    | acquire h hl => simp [hl]; exact fun hh => hut hh.symm
    | inPlace h => simp
    | realloc h => simp
    | store h => simp
    | shift h _ => simp
    | shrink h _ => simp
    | release h =>
      rw [h] at ht
      have : s.lock = some t := ht.mp trivial
      simp [this]; exact fun hh => hut hh.symm

/-- Only one goroutine is in its critical section. -/
theorem Mutex.unique {s : St} (h : Mutex s) {t u} (h1 : (s.pc t).crit) (h2 : (s.pc u).crit) :
    t = u := by
  have := (h t).mp h1
  have := (h u).mp h2
  simp_all

theorem Mutex.init {s : St} (h : s.Init) : Mutex s := by
  intro t
  obtain ⟨c, hc⟩ := h.pcs t
  simp [hc, h.free, PC.crit]

theorem run_induct {P : St → Prop} (hstep : ∀ s t s', P s → Trans s t s' → P s') :
    ∀ (sched : List (Nat × Nat)) (s : St), P s → P (s.run sched) := by
  intro sched
  induction sched with
  | nil => intro s h; exact h
  | cons a l ih => intro s h; exact ih _ (hstep s a.1 _ h (step_trans s a.1 a.2))

theorem run_call (sched : List (Nat × Nat)) (s : St) (u : Nat) :
    ((s.run sched).pc u).call = (s.pc u).call :=
  run_induct (P := fun s' => (s'.pc u).call = (s.pc u).call)
    (fun s1 t s2 h ht => by rw [ht.call u, h]) sched s rfl

theorem step_other {s t s'} (h : Trans s t s') {u} (hut : u ≠ t) : s'.pc u = s.pc u := by
  cases h <;> simp [St.goto, upd_ne hut]

/-! ## No nil dereference -/

/-- Cells below `l` of array `a` are not nil and point to allocated nodes. -/
def Full (s : St) (a l : Nat) : Prop :=
  a < s.nextArr ∧ ∀ k, k < l → ∃ d, s.mem a k = some d ∧ d < s.next

def PC.safe (s : St) : PC → Prop
  | .scan _ a l _ => Full s a l
  | .appended c ch a l => Full s a l
  | .panic _ => False
  | _ => True

structure Safe (s : St) : Prop where
  mutex : Mutex s
  hdr : Full s s.arr s.len
  thr : ∀ t, (s.pc t).safe s

theorem Safe.init {s : St} (h : s.Init) : Safe s := by
  refine ⟨.init h, ⟨h.arr_lt, h.cells⟩, fun t => ?_⟩
  obtain ⟨c, hc⟩ := h.pcs t
  simp [hc, PC.safe]

/-- Memory only grows: cells do not become nil, arrays and nodes stay allocated. -/
structure Grows (s s' : St) : Prop where
  next : s.next ≤ s'.next
  arrs : s.nextArr ≤ s'.nextArr
  mem : ∀ a k d, a < s.nextArr → s.mem a k = some d → ∃ d', s'.mem a k = some d' ∧ (d < s.next → d' < s'.next)

theorem Full.mono {s s' a l} (hg : Grows s s') (h : Full s a l) : Full s' a l := by
  refine ⟨Nat.lt_of_lt_of_le h.1 hg.arrs, fun k hk => ?_⟩
  obtain ⟨d, h1, h2⟩ := h.2 k hk
  obtain ⟨d', h3, h4⟩ := hg.mem a k d h.1 h1
  exact ⟨d', h3, h4 h2⟩

theorem safe_mono {s s'} (hg : Grows s s') {p : PC} (h : p.safe s) : p.safe s' := by
  cases p <;> simp_all [PC.safe] <;> exact h.mono hg

theorem Safe.grows {s t s'} (hs : Safe s) (h : Trans s t s') : Grows s s' := by
  cases h with
  | loc h => exact ⟨Nat.le_refl _, Nat.le_refl _, fun a k d _ h => ⟨d, h, id⟩⟩
  | acquire h _ => exact ⟨Nat.le_refl _, Nat.le_refl _, fun a k d _ h => ⟨d, h, id⟩⟩
  | store h => exact ⟨Nat.le_refl _, Nat.le_refl _, fun a k d _ h => ⟨d, h, id⟩⟩
  | shrink h _ => exact ⟨Nat.le_refl _, Nat.le_refl _, fun a k d _ h => ⟨d, h, id⟩⟩
  | release h => exact ⟨Nat.le_refl _, Nat.le_refl _, fun a k d _ h => ⟨d, h, id⟩⟩
  | inPlace h =>
    refine ⟨Nat.le_succ _, Nat.le_refl _, fun a k d ha hm => ?_⟩
    by_cases h1 : a = s.arr
    · subst h1
      by_cases h2 : k = s.len
      · subst h2; exact ⟨s.next, by simp, fun _ => Nat.lt_succ_self _⟩
      · exact ⟨d, by simp [upd_ne h2, hm], fun h => Nat.lt_succ_of_lt h⟩
    · exact ⟨d, by simp [upd_ne h1, hm], fun h => Nat.lt_succ_of_lt h⟩
  | realloc h =>
    refine ⟨Nat.le_succ _, Nat.le_succ _, fun a k d ha hm => ?_⟩
    exact ⟨d, by simp [upd_ne (show a ≠ s.nextArr by omega), hm], fun h => Nat.lt_succ_of_lt h⟩
  | @shift c j h hj =>
    refine ⟨Nat.le_refl _, Nat.le_refl _, fun a k d ha hm => ?_⟩
    by_cases h1 : a = s.arr
    · subst h1
      by_cases h2 : k = j
      · subst h2
        obtain ⟨d', h3, h4⟩ := hs.hdr.2 (k + 1) hj
        exact ⟨d', by simp [h3], fun _ => h4⟩
      · exact ⟨d, by simp [upd_ne h2, hm], id⟩
    · exact ⟨d, by simp [upd_ne h1, hm], id⟩

theorem Safe.trans {s t s'} (hs : Safe s) (h : Trans s t s') : Safe s' := by
  have hg := hs.grows h
  refine ⟨hs.mutex.trans h, ?_, ?_⟩
  · cases h with
    | loc h => exact hs.hdr
    | acquire h _ => exact hs.hdr
    | inPlace h => exact hs.hdr.mono hg
    | realloc h => exact hs.hdr.mono hg
    | @store c ch a l h => have := hs.thr t; rw [h] at this; exact this
    | shift h _ => exact hs.hdr.mono hg
    | shrink h _ =>
      refine ⟨hs.hdr.1, fun k hk => hs.hdr.2 k ?_⟩
      have : k < s.len - 1 := hk
      omega
    | release h => exact hs.hdr
  · intro u
    by_cases hut : u = t
    · subst hut
      have hp := hs.thr u
      cases h with
      | loc h =>
        simp only [St.goto, upd_same]
        generalize s.pc u = p at hp h
        cases h with
        | stutter => exact safe_mono hg hp
        | startDel => trivial
        | startScan h => exact hs.hdr.mono hg
        | @nilCell c a l i h hm =>
          obtain ⟨d, h1, _⟩ := hp.2 i h
          rw [hm] at h1; cases h1
        | hit h hm hn => trivial
        | miss h hm hn => exact Full.mono hg hp
        | missAdd h => trivial
        | missGet h hc => trivial
        | delNone hf => trivial
        | delSome hf => trivial
        | lockedGet => trivial
      | acquire h _ => simp [PC.safe]
      | inPlace h =>
        simp only [upd_same, PC.safe]
        refine ⟨hs.hdr.1, fun k hk => ?_⟩
        by_cases h2 : k = s.len
        · subst h2; exact ⟨s.next, by simp, Nat.lt_succ_self _⟩
        · obtain ⟨d, h3, h4⟩ := hs.hdr.2 k (by omega)
          exact ⟨d, by simp [upd_ne h2, h3], Nat.lt_succ_of_lt h4⟩
      | realloc h =>
        simp only [upd_same, PC.safe]
        refine ⟨Nat.lt_succ_self _, fun k hk => ?_⟩
        by_cases h2 : k = s.len
        · subst h2; exact ⟨s.next, by simp, Nat.lt_succ_self _⟩
        · have hkl : k < s.len := by omega
          obtain ⟨d, h3, h4⟩ := hs.hdr.2 k hkl
          exact ⟨d, by simp [hkl, h3], Nat.lt_succ_of_lt h4⟩
      | store h => simp [PC.safe]
      | shift h _ => simp [PC.safe]
      | shrink h _ => simp [PC.safe]
      | release h => simp [PC.safe]
    · rw [step_other h hut]
      exact safe_mono hg (hs.thr u)

/-! ## The first `p + 1` children stay put if nobody deletes one of them -/

structure Fixed (init : Nat → Nat) (nm : Nat → Bytes) (p : Nat) (mem : Nat → Nat → Option Nat)
    (a l : Nat) : Prop where
  len : p < l
  cells : ∀ k, k ≤ p → mem a k = some (init k)

def PC.keeps (init : Nat → Nat) (nm : Nat → Bytes) (p : Nat) (s : St) : PC → Prop
  | .start _ => True
  | .scan c a l i => Fixed init nm p s.mem a l ∧ (c.name = nm p → i ≤ p ∧ ∀ m, c ≠ .del m)
  | .wantLock c => c.name = nm p → False
  | .locked c => c.name = nm p → False
  | .appended c ch a l => Fixed init nm p s.mem a l ∧ c.name ≠ nm p
  | .shifting c j => p < j ∧ j < s.len ∧ c.name ≠ nm p
  | .unlock c r => c.name ≠ nm p
  | .done c r => c.name = nm p → r = some (init p)
  | .panic c => False

structure Keeps (init : Nat → Nat) (nm : Nat → Bytes) (p : Nat) (s : St) : Prop where
  safe : Safe s
  hdr : Fixed init nm p s.mem s.arr s.len
  names : ∀ k, k ≤ p → init k < s.next ∧ s.name (init k) = nm k
  distinct : ∀ k, k < p → nm k ≠ nm p
  dels : ∀ t m, (s.pc t).call = .del m → ∀ k, k ≤ p → nm k ≠ m
  thr : ∀ t, (s.pc t).keeps init nm p s

theorem keeps_congr {init nm p} {s s' : St} (hm : s'.mem = s.mem) (hl : s'.len = s.len) {q : PC}
    (h : q.keeps init nm p s) : q.keeps init nm p s' := by
  cases q <;> simp_all [PC.keeps]

theorem findIdx_spec {s : St} {m i} (h : s.findIdx m = some i) :
    i < s.len ∧ (s.mem s.arr i).map s.name = some m := by
  unfold St.findIdx at h
  have h1 := List.mem_of_find?_eq_some h
  have h2 := List.find?_some h
  simp at h1 h2
  exact ⟨h1, by simpa using h2⟩

theorem Keeps.trans {init nm p s t s'} (hs : Keeps init nm p s) (h : Trans s t s') :
    Keeps init nm p s' := by
  have hsafe := hs.safe.trans h
  have hmut := hs.safe.mutex
  -- frame: fixed cells of every array that has them stay
  have hfix : ∀ a l, a < s.nextArr → Fixed init nm p s.mem a l → Fixed init nm p s'.mem a l := by
    intro a l ha hf
    refine ⟨hf.len, fun k hk => ?_⟩
    have hc := hf.cells k hk
    cases h with
    | loc h => exact hc
    | acquire h _ => exact hc
    | store h => exact hc
    | shrink h _ => exact hc
    | release h => exact hc
    | inPlace h =>
      have := hs.hdr.len
      by_cases h1 : a = s.arr
      · subst h1; simp [upd_ne (show k ≠ s.len by omega), hc]
      · simp [upd_ne h1, hc]
    | realloc h => simp [upd_ne (show a ≠ s.nextArr by omega), hc]
    | @shift c j h hj =>
      have hp := hs.thr t
      rw [h] at hp
      have := hp.1
      by_cases h1 : a = s.arr
      · subst h1; simp [upd_ne (show k ≠ j by omega), hc]
      · simp [upd_ne h1, hc]
  have hnames : ∀ k, k ≤ p → init k < s'.next ∧ s'.name (init k) = nm k := by
    intro k hk
    obtain ⟨h1, h2⟩ := hs.names k hk
    cases h with
    | loc h => exact ⟨h1, h2⟩
    | acquire h _ => exact ⟨h1, h2⟩
    | store h => exact ⟨h1, h2⟩
    | shrink h _ => exact ⟨h1, h2⟩
    | release h => exact ⟨h1, h2⟩
    | shift h _ => exact ⟨h1, h2⟩
    | inPlace h => exact ⟨Nat.lt_succ_of_lt h1, by simp [upd_ne (show init k ≠ s.next by omega), h2]⟩
    | realloc h => exact ⟨Nat.lt_succ_of_lt h1, by simp [upd_ne (show init k ≠ s.next by omega), h2]⟩
  have hcall : ∀ u, (s'.pc u).call = (s.pc u).call := h.call
  have hhdr0 : Fixed init nm p s'.mem s.arr s.len := hfix _ _ hs.safe.hdr.1 hs.hdr
  refine ⟨hsafe, ?_, hnames, hs.distinct, fun t m hm => hs.dels t m (by rw [← hcall]; exact hm), ?_⟩
  · cases h with
    | loc h => exact hs.hdr
    | acquire h _ => exact hs.hdr
    | inPlace h => exact hhdr0
    | realloc h => exact hhdr0
    | @store c ch a l h =>
      have hp := hs.thr t
      rw [h] at hp
      exact ⟨hp.1.len, hp.1.cells⟩
    | shift h _ => exact hhdr0
    | @shrink c j h hj =>
      have hp := hs.thr t
      rw [h] at hp
      refine ⟨?_, hs.hdr.cells⟩
      have h1 := hp.1
      have h2 := hp.2.1
      show p < s.len - 1
      omega
    | release h => exact hs.hdr
  · intro u
    have hpu := hs.thr u
    have hsu := hs.safe.thr u
    by_cases hut : u = t
    · subst hut
      cases h with
      | loc h =>
        simp only [St.goto, upd_same]
        have hd := hs.dels u
        generalize hpc : s.pc u = pp at hpu hsu h hd
        cases h with
        | stutter => exact keeps_congr rfl rfl hpu
        | @startDel m =>
          intro he
          exact hd m rfl p (Nat.le_refl _) he.symm
        | startScan h => exact ⟨hs.hdr, fun _ => ⟨Nat.zero_le _, h⟩⟩
        | @nilCell c a l i h hm =>
          obtain ⟨d, h1, _⟩ := hsu.2 i h
          rw [hm] at h1; cases h1
        | @hit c a l i d h hm hn =>
          intro he
          obtain ⟨h1, _⟩ := hpu.2 he
          have := hpu.1.cells i h1
          rw [hm] at this; cases this
          have h2 := (hs.names i h1).2
          rw [hn, he] at h2
          by_cases h3 : i = p
          · rw [h3]
          · exact absurd h2.symm (hs.distinct i (by omega))
        | @miss c a l i d h hm hn =>
          refine ⟨hpu.1, fun he => ?_⟩
          obtain ⟨h1, h2⟩ := hpu.2 he
          refine ⟨?_, h2⟩
          by_cases h3 : i = p
          · exfalso
            have := hpu.1.cells i h1
            rw [hm] at this; cases this
            have h4 := (hs.names i h1).2
            rw [h3] at h4 hn
            exact hn (h4.trans he.symm)
          · omega
        | @missAdd n a l i h =>
          intro he
          obtain ⟨h1, _⟩ := hpu.2 he
          have := hpu.1.len
          omega
        | @missGet c a l i h hc =>
          intro he
          obtain ⟨h1, _⟩ := hpu.2 he
          have := hpu.1.len
          omega
        | delNone hf => exact fun he => hpu he
        | @delSome m i hf =>
          obtain ⟨h1, h2⟩ := findIdx_spec hf
          refine ⟨?_, h1, hpu⟩
          rcases Nat.lt_or_ge p i with h3 | h3
          · exact h3
          · exfalso
            rw [hs.hdr.cells i h3] at h2
            simp only [Option.map_some, Option.some.injEq, (hs.names i h3).2] at h2
            exact hd m rfl i h3 h2
        | lockedGet => exact fun he => hpu he
      | acquire h _ => simp only [upd_same]; rw [h] at hpu; exact hpu
      | inPlace h =>
        simp only [upd_same]; rw [h] at hpu
        exact ⟨⟨Nat.lt_succ_of_lt hs.hdr.len, hhdr0.cells⟩, hpu⟩
      | realloc h =>
        simp only [upd_same]; rw [h] at hpu
        have hl := hs.hdr.len
        refine ⟨⟨Nat.lt_succ_of_lt hl, fun k hk => ?_⟩, hpu⟩
        have : k < s.len := by omega
        simp [this, hs.hdr.cells k hk]
      | store h => simp only [upd_same]; rw [h] at hpu; exact hpu.2
      | shift h hj =>
        simp only [upd_same]; rw [h] at hpu
        exact ⟨Nat.lt_succ_of_lt hpu.1, hj, hpu.2.2⟩
      | shrink h hj => simp only [upd_same]; rw [h] at hpu; exact hpu.2.2
      | release h =>
        simp only [upd_same]; rw [h] at hpu
        exact fun he => absurd he hpu
    · rw [step_other h hut]
      have hcr : (s.pc u).crit → s'.len = s.len := by
        intro hc
        have hno : ¬ (s.pc t).crit := fun h2 => hut (hmut.unique hc h2)
        cases h with
        | loc h => rfl
        | acquire h _ => rfl
        | inPlace h => rfl
        | realloc h => rfl
        | store h => exact absurd (by simp [h, PC.crit]) hno
        | shift h _ => rfl
        | shrink h _ => exact absurd (by simp [h, PC.crit]) hno
        | release h => rfl
      generalize s.pc u = pp at hpu hsu hcr
      cases pp with
      | start c => trivial
      | scan c a l i => exact ⟨hfix a l hsu.1 hpu.1, hpu.2⟩
      | wantLock c => exact hpu
      | locked c => exact hpu
      | appended c ch a l => exact ⟨hfix a l hsu.1 hpu.1, hpu.2⟩
      | shifting c j => exact ⟨hpu.1, by rw [hcr trivial]; exact hpu.2.1, hpu.2.2⟩
      | unlock c r => exact hpu
      | done c r => exact hpu
      | panic c => exact hpu

/-! ## No deletions: the children only grow -/

def PC.added (s : St) : PC → Prop
  | .scan _ a l _ => l ≤ s.len ∧ ∀ k, k < l → s.mem a k = s.mem s.arr k
  | .appended c ch a l => l = s.len + 1 ∧ (∀ k, k < s.len → s.mem a k = s.mem s.arr k) ∧
      s.mem a s.len = some ch ∧ ch < s.next ∧ s.name ch = c.name
  | .unlock c (some ch) => (∃ k, k < s.len ∧ s.mem s.arr k = some ch) ∧ ch < s.next ∧ s.name ch = c.name
  | .unlock _ none => False
  | .done c r => (∀ n, c = .add n → r ≠ none) ∧ ∀ ch, r = some ch →
      (∃ k, k < s.len ∧ s.mem s.arr k = some ch) ∧ ch < s.next ∧ s.name ch = c.name
  | .locked c => ∃ n, c = .add n
  | .wantLock c => ∃ n, c = .add n
  | .shifting _ _ => False
  | .panic _ => False
  | _ => True

structure AddOnly (s : St) : Prop where
  safe : Safe s
  calls : ∀ t m, (s.pc t).call ≠ .del m
  thr : ∀ t, (s.pc t).added s

/-- Children are only appended. -/
structure Extends (s s' : St) : Prop where
  len : s.len ≤ s'.len
  cells : ∀ k, k < s.len → s'.mem s'.arr k = s.mem s.arr k

theorem AddOnly.init {s : St} (h : s.Init) (hd : ∀ t m, s.pc t ≠ .start (.del m)) : AddOnly s := by
  refine ⟨.init h, fun t m => ?_, fun t => ?_⟩
  · obtain ⟨c, hc⟩ := h.pcs t
    have := hd t m
    rw [hc] at this
    rw [hc]
    simpa [PC.call] using this
  · obtain ⟨c, hc⟩ := h.pcs t
    simp [hc, PC.added]

theorem AddOnly.trans {s t s'} (hs : AddOnly s) (h : Trans s t s') :
    AddOnly s' ∧ Extends s s' := by
  have hsafe := hs.safe.trans h
  have hmut := hs.safe.mutex
  have hlen : ∀ k, k < s.len → ∀ a, a < s.nextArr → s'.mem a k = s.mem a k := by
    intro k hk a ha
    cases h with
    | loc h => rfl
    | acquire h _ => rfl
    | store h => rfl
    | shrink h _ => rfl
    | release h => rfl
    | inPlace h =>
      by_cases h1 : a = s.arr
      · subst h1; simp [upd_ne (show k ≠ s.len by omega)]
      · simp [upd_ne h1]
    | realloc h => simp [upd_ne (show a ≠ s.nextArr by omega)]
    | shift h _ => have := hs.thr t; rw [h] at this; exact this.elim
  have hext : Extends s s' := by
    cases h with
    | loc h => exact ⟨Nat.le_refl _, fun _ _ => rfl⟩
    | acquire h _ => exact ⟨Nat.le_refl _, fun _ _ => rfl⟩
    | inPlace h => exact ⟨Nat.le_refl _, fun k hk => hlen k hk _ hs.safe.hdr.1⟩
    | realloc h => exact ⟨Nat.le_refl _, fun k hk => hlen k hk _ hs.safe.hdr.1⟩
    | store h =>
      have := hs.thr t; rw [h] at this
      obtain ⟨h1, h2, _⟩ := this
      exact ⟨by dsimp only; omega, h2⟩
    | shift h _ => have := hs.thr t; rw [h] at this; exact this.elim
    | shrink h _ => have := hs.thr t; rw [h] at this; exact this.elim
    | release h => exact ⟨Nat.le_refl _, fun _ _ => rfl⟩
  have hnm : ∀ c, c < s.next → c < s'.next ∧ s'.name c = s.name c := by
    intro c hc
    cases h with
    | loc h => exact ⟨hc, rfl⟩
    | acquire h _ => exact ⟨hc, rfl⟩
    | store h => exact ⟨hc, rfl⟩
    | shrink h _ => exact ⟨hc, rfl⟩
    | release h => exact ⟨hc, rfl⟩
    | shift h _ => exact ⟨hc, rfl⟩
    | inPlace h => exact ⟨Nat.lt_succ_of_lt hc, by simp [upd_ne (show c ≠ s.next by omega)]⟩
    | realloc h => exact ⟨Nat.lt_succ_of_lt hc, by simp [upd_ne (show c ≠ s.next by omega)]⟩
  have hpub : ∀ ch nn, ((∃ k, k < s.len ∧ s.mem s.arr k = some ch) ∧ ch < s.next ∧ s.name ch = nn) →
      ((∃ k, k < s'.len ∧ s'.mem s'.arr k = some ch) ∧ ch < s'.next ∧ s'.name ch = nn) := by
    rintro ch nn ⟨⟨k, h1, h2⟩, h3, h4⟩
    obtain ⟨h5, h6⟩ := hnm ch h3
    exact ⟨⟨k, Nat.lt_of_lt_of_le h1 hext.len, by rw [hext.cells k h1, h2]⟩, h5, by rw [h6, h4]⟩
  have hscan : ∀ a l, a < s.nextArr → (l ≤ s.len ∧ ∀ k, k < l → s.mem a k = s.mem s.arr k) →
      (l ≤ s'.len ∧ ∀ k, k < l → s'.mem a k = s'.mem s'.arr k) := by
    rintro a l ha ⟨h1, h2⟩
    refine ⟨Nat.le_trans h1 hext.len, fun k hk => ?_⟩
    have hkl : k < s.len := by omega
    rw [hlen k hkl a ha, hext.cells k hkl, h2 k hk]
  refine ⟨⟨hsafe, fun u m => by rw [h.call u]; exact hs.calls u m, fun u => ?_⟩, hext⟩
  have hpu := hs.thr u
  have hsu := hs.safe.thr u
  by_cases hut : u = t
  · subst hut
    cases h with
    | loc h =>
      simp only [St.goto, upd_same]
      have hcu := hs.calls u
      generalize hpc : s.pc u = pp at hpu hsu h hcu
      cases h with
      | stutter => exact hpu
      | startDel => exact absurd rfl (hcu _)
      | startScan h => exact ⟨Nat.le_refl _, fun _ _ => rfl⟩
      | @nilCell c a l i h hm =>
        obtain ⟨d, h1, _⟩ := hsu.2 i h
        rw [hm] at h1; cases h1
      | @hit c a l i d h hm hn =>
        refine ⟨fun _ _ => by simp, ?_⟩
        intro ch he; cases he
        obtain ⟨h1, h2⟩ := hpu
        obtain ⟨d', h3, h4⟩ := hsu.2 i h
        rw [hm] at h3; cases h3
        exact ⟨⟨i, Nat.lt_of_lt_of_le h h1, by show s.mem s.arr i = _; rw [← h2 i h, hm]⟩, h4, hn⟩
      | miss h hm hn => exact hpu
      | @missAdd n a l i h => exact ⟨n, rfl⟩
      | @missGet c a l i h hc => exact ⟨fun n he => absurd he (hc n), by simp⟩
      | @delNone m hf => obtain ⟨n, hn⟩ := hpu; cases hn
      | @delSome m i hf => obtain ⟨n, hn⟩ := hpu; cases hn
      | @lockedGet n => obtain ⟨n, hn⟩ := hpu; cases hn
    | acquire h _ => simp only [upd_same]; rw [h] at hpu; exact hpu
    | inPlace h =>
      simp only [upd_same]
      refine ⟨rfl, fun k hk => rfl, by simp, Nat.lt_succ_self _, by simp [Call.name]⟩
    | realloc h =>
      simp only [upd_same]
      refine ⟨rfl, fun k hk => ?_, by simp, Nat.lt_succ_self _, by simp [Call.name]⟩
      have hk' : k < s.len := hk
      have := hs.safe.hdr.1
      simp [hk', upd_ne (show s.arr ≠ s.nextArr by omega)]
    | store h =>
      simp only [upd_same]; rw [h] at hpu
      obtain ⟨h1, h2, h3, h4, h5⟩ := hpu
      exact ⟨⟨s.len, by dsimp only; omega, h3⟩, h4, h5⟩
    | shift h hj => rw [h] at hpu; exact hpu.elim
    | shrink h hj => rw [h] at hpu; exact hpu.elim
    | @release c r h =>
      simp only [upd_same]; rw [h] at hpu
      cases r with
      | none => exact hpu.elim
      | some ch =>
        refine ⟨fun _ _ => by simp, ?_⟩
        intro ch' he; cases he
        exact hpu
  · rw [step_other h hut]
    have hcr : (s.pc u).crit → s'.len = s.len ∧ s'.arr = s.arr ∧ s'.name = s.name ∧ s'.mem = s.mem
        ∧ s'.next = s.next := by
      intro hc
      have hno : ¬ (s.pc t).crit := fun h2 => hut (hmut.unique hc h2)
      cases h with
      | loc h => exact ⟨rfl, rfl, rfl, rfl, rfl⟩
      | acquire h _ => exact ⟨rfl, rfl, rfl, rfl, rfl⟩
      | inPlace h => exact absurd (by simp [h, PC.crit]) hno
      | realloc h => exact absurd (by simp [h, PC.crit]) hno
      | store h => exact absurd (by simp [h, PC.crit]) hno
      | shift h _ => exact absurd (by simp [h, PC.crit]) hno
      | shrink h _ => exact absurd (by simp [h, PC.crit]) hno
      | release h => exact absurd (by simp [h, PC.crit]) hno
    generalize s.pc u = pp at hpu hsu hcr
    cases pp with
    | start c => trivial
    | scan c a l i => exact hscan a l hsu.1 hpu
    | wantLock c => exact hpu
    | locked c => exact hpu
    | appended c ch a l =>
      obtain ⟨h1, h2, h3, h4, h5⟩ := hcr trivial
      simp only [PC.added, h1, h2, h3, h4, h5]
      exact hpu
    | shifting c j => exact hpu
    | unlock c r =>
      cases r with
      | none => exact hpu
      | some ch => exact hpub ch _ hpu
    | done c r => exact ⟨hpu.1, fun ch he => hpub ch _ (hpu.2 ch he)⟩
    | panic c => exact hpu

theorem Extends.trans {s s' s''} (h1 : Extends s s') (h2 : Extends s' s'') : Extends s s'' :=
  ⟨Nat.le_trans h1.len h2.len, fun k hk => by
    rw [h2.cells k (Nat.lt_of_lt_of_le hk h1.len), h1.cells k hk]⟩

end Verif.TreeConc

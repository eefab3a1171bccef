import Verif.Growable

/-! Helper lemmas for the growable queue: the inductive invariant. -/

namespace Verif.Growable
variable {α : Type}

/-- A ring of `2^k` slots holding exactly positions `lo .. u-1` of `log`. -/
structure Win (k : Nat) (b : Buf α) (lo u : Nat) (log : List α) : Prop where
  mask : b.mask = 2 ^ k - 1
  le : lo ≤ u
  cap : u ≤ lo + 2 ^ k
  filled : ∀ q, lo ≤ q → q < u →
    b.position (q % 2 ^ k) = q + 1 ∧ log[q]? = some (b.element (q % 2 ^ k))
  free : ∀ q, u ≤ q → q < lo + 2 ^ k → b.position (q % 2 ^ k) = q

theorem Win.pos_eq {k : Nat} {b : Buf α} {lo u : Nat} {log : List α} (h : Win k b lo u log)
    (q : Nat) : b.pos q = b.position (q % 2 ^ k) := by
  unfold Buf.pos; rw [h.mask, and_mask]

theorem two_le_pow {k : Nat} (hk : 1 ≤ k) : 2 ≤ 2 ^ k := by
  calc 2 = 2 ^ 1 := rfl
    _ ≤ 2 ^ k := Nat.pow_le_pow_right (by omega) hk

/-- Success of the consumer's slot test. -/
theorem Win.ready {k : Nat} (hk : 1 ≤ k) {b : Buf α} {lo u : Nat} {log : List α}
    (h : Win k b lo u log) {g : Nat} (hlo : g ≤ lo) (hp : b.pos g = g + 1) :
    lo ≤ g ∧ g < u := by
  have h2 := two_le_pow hk
  rw [h.pos_eq] at hp
  have hle := h.le
  have hcap := h.cap
  by_cases hgl : g < lo
  · exfalso
    obtain ⟨q, hq1, hq2, hq3⟩ := exists_window lo g (2 ^ k) (by omega)
    have hge : g + 2 ^ k ≤ q := by
      apply Nat.le_of_not_lt
      intro hlt
      exact mod_ne_of_lt (a := g) (b := q) (by omega) hlt hq3.symm
    rw [← hq3] at hp
    by_cases hqu : q < u
    · rw [(h.filled q hq1 hqu).1] at hp; omega
    · rw [h.free q (by omega) hq2] at hp; omega
  · refine ⟨by omega, ?_⟩
    apply Nat.lt_of_not_le
    intro hge
    rw [h.free g hge (by omega)] at hp; omega

/-- Success of the producer's slot test. -/
theorem Win.room {k : Nat} (hk : 1 ≤ k) {b : Buf α} {lo u : Nat} {log : List α}
    (h : Win k b lo u log) (hp : b.pos u = u) : u < lo + 2 ^ k := by
  have h2 := two_le_pow hk
  have hcap := h.cap
  rw [h.pos_eq] at hp
  apply Nat.lt_of_not_le
  intro hge
  have he : u = lo + 2 ^ k := by omega
  rw [he, Nat.add_mod_right, (h.filled lo (Nat.le_refl _) (by omega)).1] at hp
  omega

theorem Win.log_append {k : Nat} {b : Buf α} {lo u : Nat} {log : List α}
    (h : Win k b lo u log) (x : List α) : Win k b lo u (log ++ x) := by
  obtain ⟨h1, h2, h3, h4, h5⟩ := h
  refine ⟨h1, h2, h3, ?_, h5⟩
  intro q hq1 hq2
  obtain ⟨ha, hb⟩ := h4 q hq1 hq2
  refine ⟨ha, ?_⟩
  rw [List.getElem?_append_left (List.getElem?_eq_some_iff.1 hb).1, hb]

theorem Win.setElem {k : Nat} {b : Buf α} {lo u : Nat} {log : List α}
    (h : Win k b lo u log) (hr : u < lo + 2 ^ k) (x : α) : Win k (b.setElem u x) lo u log := by
  obtain ⟨h1, h2, h3, h4, h5⟩ := h
  refine ⟨h1, h2, h3, ?_, h5⟩
  intro q hq1 hq2
  obtain ⟨ha, hb⟩ := h4 q hq1 hq2
  refine ⟨ha, ?_⟩
  simp only [Buf.setElem, h1, and_mask]
  rw [upd_ne _ _ (mod_ne_of_lt hq2 (by omega)), hb]

theorem setElem_get {k : Nat} {b : Buf α} {lo u : Nat} {log : List α}
    (h : Win k b lo u log) (x : α) : (b.setElem u x).element (u % 2 ^ k) = x := by
  simp only [Buf.setElem, h.mask, and_mask, upd_same]

theorem Win.publish {k : Nat} {b : Buf α} {lo u : Nat} {log : List α}
    (h : Win k b lo u log) (hr : u < lo + 2 ^ k) {x : α} (hx : b.element (u % 2 ^ k) = x)
    (hl : log.length = u) : Win k (b.setPos u (u + 1)) lo (u + 1) (log ++ [x]) := by
  obtain ⟨h1, h2, h3, h4, h5⟩ := h
  have hb : (b.setPos u (u + 1)).position = upd b.position (u % 2 ^ k) (u + 1) := by
    simp only [Buf.setPos, h1, and_mask]
  have he : (b.setPos u (u + 1)).element = b.element := rfl
  refine ⟨h1, by omega, by omega, ?_, ?_⟩
  · intro q hq1 hq2
    rw [hb, he]
    by_cases hqu : q < u
    · obtain ⟨ha, hb⟩ := h4 q hq1 hqu
      rw [upd_ne _ _ (mod_ne_of_lt hqu (by omega)), List.getElem?_append_left (by omega)]
      exact ⟨ha, hb⟩
    · have : q = u := by omega
      subst this
      rw [upd_same, List.getElem?_append_right (by omega), hl, hx]
      simp
  · intro q hq1 hq2
    rw [hb, upd_ne _ _ (Ne.symm (mod_ne_of_lt (a := u) (b := q) (by omega) (by omega)))]
    exact h5 q (by omega) hq2

theorem Win.release {k : Nat} {b : Buf α} {lo u : Nat} {log : List α}
    (h : Win k b lo u log) (hr : lo < u) :
    Win k (b.setPos lo (lo + 1 + b.mask)) (lo + 1) u log := by
  obtain ⟨h1, h2, h3, h4, h5⟩ := h
  have hp : 0 < 2 ^ k := Nat.two_pow_pos k
  have hb : (b.setPos lo (lo + 1 + b.mask)).position =
      upd b.position (lo % 2 ^ k) (lo + 2 ^ k) := by
    simp only [Buf.setPos, h1, and_mask]
    congr 1; omega
  have he : (b.setPos lo (lo + 1 + b.mask)).element = b.element := rfl
  refine ⟨h1, by omega, by omega, ?_, ?_⟩
  · intro q hq1 hq2
    rw [hb, he, upd_ne _ _ (Ne.symm (mod_ne_of_lt (a := lo) (b := q) (by omega) (by omega)))]
    exact h4 q (by omega) hq2
  · intro q hq1 hq2
    rw [hb]
    by_cases hq : q = lo + 2 ^ k
    · subst hq
      rw [Nat.add_mod_right, upd_same]
    · rw [upd_ne _ _ (Ne.symm (mod_ne_of_lt (a := lo) (b := q) (by omega) (by omega)))]
      exact h5 q hq1 (by omega)

/-! ### The buffer built by a growth -/

theorem fillLoop_spec (k S : Nat) (f : Nat → Nat) (n : Nat) (hn : n < 2 ^ k) :
    (fillLoop (2 ^ k - 1) S f n) (S % 2 ^ k) = f (S % 2 ^ k) ∧
    ∀ i, 1 ≤ i → i ≤ n → (fillLoop (2 ^ k - 1) S f n) ((S + i) % 2 ^ k) = S + i := by
  induction n with
  | zero => exact ⟨rfl, fun i h1 h2 => by omega⟩
  | succ n ih =>
    obtain ⟨ih1, ih2⟩ := ih (by omega)
    simp only [fillLoop, and_mask]
    refine ⟨?_, ?_⟩
    · rw [upd_ne _ _ (mod_ne_of_lt (by omega) (by omega)), ih1]
    · intro i h1 h2
      by_cases hi : i = n + 1
      · subst hi; rw [upd_same]
      · rw [upd_ne _ _ (mod_ne_of_lt (by omega) (by omega)), ih2 i h1 (by omega)]

theorem fillLoopE_spec (z : α) (k S : Nat) (f : Nat → α) (n : Nat) (hn : n < 2 ^ k) :
    (fillLoopE z (2 ^ k - 1) S f n) (S % 2 ^ k) = f (S % 2 ^ k) := by
  induction n with
  | zero => rfl
  | succ n ih =>
    simp only [fillLoopE, and_mask]
    rw [upd_ne _ _ (mod_ne_of_lt (by omega) (by omega)), ih (by omega)]

theorem newBuf_win (z : α) (k S mask : Nat) (x : α) (log : List α) (hm : mask = 2 ^ k - 1)
    (hl : log.length = S) : Win (k + 1) (newBuf z mask S x) S (S + 1) (log ++ [x]) := by
  have hp : 0 < 2 ^ k := Nat.two_pow_pos k
  have hs : (mask + 1) * 2 = 2 ^ (k + 1) := by rw [hm, Nat.pow_succ]; congr 1; omega
  have hp' : 2 ≤ 2 ^ (k + 1) := two_le_pow (by omega)
  have hmask : (newBuf z mask S x).mask = 2 ^ (k + 1) - 1 := by simp only [newBuf, hs]
  have hpos : (newBuf z mask S x).position =
      fillLoop (2 ^ (k + 1) - 1) S (upd (fun _ => 0) (S % 2 ^ (k + 1)) (S + 1))
        (2 ^ (k + 1) - 1) := by
    simp only [newBuf, hs, and_mask]
  have hel : (newBuf z mask S x).element =
      fillLoopE z (2 ^ (k + 1) - 1) S (upd (fun _ => z) (S % 2 ^ (k + 1)) x)
        (2 ^ (k + 1) - 1) := by
    simp only [newBuf, hs, and_mask]
  obtain ⟨h1, h2⟩ := fillLoop_spec (k + 1) S (upd (fun _ => 0) (S % 2 ^ (k + 1)) (S + 1))
    (2 ^ (k + 1) - 1) (by omega)
  have h3 := fillLoopE_spec z (k + 1) S (upd (fun _ => z) (S % 2 ^ (k + 1)) x)
    (2 ^ (k + 1) - 1) (by omega)
  refine ⟨hmask, by omega, by omega, ?_, ?_⟩
  · intro q hq1 hq2
    have : q = S := by omega
    subst this
    rw [hpos, hel, h1, h3, upd_same, upd_same, List.getElem?_append_right (by omega), hl]
    simp
  · intro q hq1 hq2
    rw [hpos]
    have := h2 (q - S) (by omega) (by omega)
    rwa [show S + (q - S) = q by omega] at this

/-! ### The invariant -/

/-- Items that are in the producer's buffer: the put log, plus the item of a growth that has
been built but not yet announced. -/
def logE (s : St α) : List α :=
  match s.ppc with
  | .setGrown x _ => s.putLog ++ [x]
  | _ => s.putLog

/-- First live position of buffer `b`. -/
def lo (s : St α) (b : Nat) : Nat := max s.gotLog.length (s.start b)

/-- End of what the consumer's buffer holds. -/
def uD (s : St α) : Nat := if s.db = s.eb then s.putLog.length else s.start s.eb

def POk (k : Nat) (s : St α) : Prop :=
  match s.ppc with
  | .idle | .oCheck _ => s.enqueue = s.putLog.length ∧ s.status = false
  | .closed => s.enqueue = s.putLog.length
  | .fCheck _ q | .mustSlow _ q | .slow _ q | .canGrow _ q =>
    s.enqueue = s.putLog.length + 1 ∧ q = s.putLog.length ∧ s.status = false
  | .alloc _ q => s.enqueue = s.putLog.length + 1 ∧ q = s.putLog.length ∧ s.status = false ∧
      s.isGrown = false ∧ s.db = s.eb
  | .setGrown _ q => s.enqueue = s.putLog.length + 1 ∧ q = s.putLog.length ∧ s.status = false ∧
      s.isGrown = false ∧ s.db + 1 = s.eb ∧ s.start s.eb = s.putLog.length
  | .write _ q b => s.enqueue = (if b then s.putLog.length else s.putLog.length + 1) ∧
      q = s.putLog.length ∧ s.status = false ∧ s.putLog.length < lo s s.eb + 2 ^ (k + s.eb)
  | .publish x q => s.enqueue = s.putLog.length + 1 ∧ q = s.putLog.length ∧ s.status = false ∧
      s.putLog.length < lo s s.eb + 2 ^ (k + s.eb) ∧
      (s.bufs s.eb).element (s.putLog.length % 2 ^ (k + s.eb)) = x

def deqK (s : St α) (kd : CKind) : Prop :=
  s.dequeue = if kd = .accept then s.gotLog.length else s.gotLog.length + 1

def COk (s : St α) : Prop :=
  match s.cpc with
  | .idle | .icGrown | .icStatus => s.dequeue = s.gotLog.length
  | .icEnq => s.dequeue = s.gotLog.length ∧ s.status = true
  | .check kd d | .grown kd d => deqK s kd ∧ d = s.gotLog.length
  | .read kd d => deqK s kd ∧ d = s.gotLog.length ∧ s.start s.db ≤ s.gotLog.length ∧
      s.gotLog.length < uD s
  | .release _ d x => s.dequeue = s.gotLog.length + 1 ∧ d = s.gotLog.length ∧
      s.start s.db ≤ s.gotLog.length ∧ s.gotLog.length < uD s ∧
      s.putLog[s.gotLog.length]? = some x
  | .switch kd d => deqK s kd ∧ d = s.gotLog.length ∧ s.isGrown = true ∧ s.db + 1 = s.eb
  | .clear kd d => deqK s kd ∧ d = s.gotLog.length ∧ s.isGrown = true ∧ s.db = s.eb
  | .mustSlow d | .status d => s.dequeue = s.gotLog.length + 1 ∧ d = s.gotLog.length
  | .grown2 d | .enq d => s.dequeue = s.gotLog.length + 1 ∧ d = s.gotLog.length ∧ s.status = true
  | .sawClosed | .icTrue => s.gotLog.length = s.putLog.length ∧ s.status = true

structure Inv (k : Nat) (s : St α) : Prop where
  got : s.gotLog <+: s.putLog
  dbeb : s.db = s.eb ∨ s.db + 1 = s.eb
  starts : s.start s.db ≤ s.start s.eb
  startLe : s.start s.eb ≤ s.putLog.length
  winE : Win (k + s.eb) (s.bufs s.eb) (lo s s.eb) (logE s).length (logE s)
  winD : s.db ≠ s.eb → Win (k + s.db) (s.bufs s.db) (lo s s.db) (s.start s.eb) s.putLog
  flagF : s.isGrown = false → s.db = s.eb ∨ ∃ x q, s.ppc = .setGrown x q
  flagT : s.isGrown = true → s.db + 1 = s.eb ∨ ∃ kd d, s.cpc = .clear kd d
  pok : POk k s
  cok : COk s

theorem inv_init (z : α) (k m : Nat) : Inv k (init z (2 ^ k) m) := by
  refine ⟨by simp [init], by simp [init], by simp [init], by simp [init], ?_, by simp [init],
    by simp [init], by simp [init], by simp [init, POk], by simp [init, COk]⟩
  refine ⟨by simp [init], by simp [init, lo, logE], by simp [init, logE], ?_, ?_⟩
  · intro q h1 h2; simp [init, logE] at h2
  · intro q h1 h2
    simp only [init, lo, List.length_nil, Nat.max_self, Nat.zero_add, Nat.add_zero] at h2 ⊢
    exact Nat.mod_eq_of_lt h2

/-- The status word is only set by `Close`. -/
theorem POk.closed {k : Nat} {s : St α} (h : POk k s) (hs : s.status = true) :
    s.ppc = .closed ∧ s.enqueue = s.putLog.length := by
  unfold POk at h
  split at h <;> simp_all

/-- The consumer's own buffer as a window, whichever buffer it is. -/
theorem Inv.winC {k : Nat} {s : St α} (h : Inv k s) (hns : s.db = s.eb → logE s = s.putLog) :
    Win (k + s.db) (s.bufs s.db) (lo s s.db) (uD s) s.putLog := by
  by_cases he : s.db = s.eb
  · have := h.winE
    rw [hns he] at this
    rw [he]
    simpa [uD, he] using this
  · have := h.winD he
    simpa [uD, he] using this

theorem Inv.logE_eq {k : Nat} {s : St α} (h : Inv k s) (he : s.db = s.eb) : logE s = s.putLog := by
  have hp := h.pok
  unfold POk at hp
  unfold logE
  split
  · next x q hq =>
    rw [hq] at hp
    simp only at hp
    omega
  · rfl

theorem Inv.gLe {k : Nat} {s : St α} (h : Inv k s) : s.gotLog.length ≤ s.putLog.length :=
  h.got.length_le


/-- A consumer step that only changes the program counter (and maybe `dequeue`). -/
theorem Inv.cpc_only {k : Nat} {s : St α} (h : Inv k s) (c : CPc α) (dq : Nat)
    (hf : s.isGrown = true → s.db + 1 = s.eb ∨ ∃ kd d, c = .clear kd d)
    (hc : COk { s with cpc := c, dequeue := dq }) : Inv k { s with cpc := c, dequeue := dq } := by
  obtain ⟨h1, h2, h3, h4, h5, h6, h7, h8, h9, h10⟩ := h
  exact ⟨h1, h2, h3, h4, h5, h6, h7, hf, h9, hc⟩

theorem Inv.notClear {k : Nat} {s : St α} (h : Inv k s) (hc : ∀ kd d, s.cpc ≠ .clear kd d) :
    s.isGrown = true → s.db + 1 = s.eb := by
  intro hg
  rcases h.flagT hg with h1 | ⟨kd, d, h1⟩
  · exact h1
  · exact absurd h1 (hc kd d)

theorem inv_cStep {k : Nat} (hk : 1 ≤ k) {s s' : St α} (h : Inv k s) (hs : cStep s = some s') :
    Inv k s' := by
  unfold cStep at hs
  have hcok := h.cok
  unfold COk at hcok
  have hgl := h.gLe
  split at hs
  · next kd d hpc =>
    rw [hpc] at hcok
    simp only at hcok
    obtain ⟨hdq, rfl⟩ := hcok
    have hnc := h.notClear (by simp [hpc])
    split at hs
    · next hif =>
      obtain rfl := Option.some.inj hs
      refine h.cpc_only _ s.dequeue (fun hg => Or.inl (hnc hg)) ?_
      have hw := h.winC h.logE_eq
      obtain ⟨ha, hb⟩ := hw.ready (by omega) (by unfold lo; omega) hif
      simp only [COk]
      refine ⟨hdq, trivial, ?_, hb⟩
      unfold lo at ha; omega
    · obtain rfl := Option.some.inj hs
      exact h.cpc_only _ s.dequeue (fun hg => Or.inl (hnc hg)) ⟨hdq, rfl⟩
  · next kd d hpc =>
    rw [hpc] at hcok
    simp only at hcok
    obtain ⟨hdq, rfl, hst, hlt⟩ := hcok
    have hnc := h.notClear (by simp [hpc])
    obtain rfl := Option.some.inj hs
    refine h.cpc_only _ _ (fun hg => Or.inl (hnc hg)) ?_
    have hw := h.winC h.logE_eq
    have hlo : lo s s.db = s.gotLog.length := by unfold lo; omega
    simp only [COk]
    refine ⟨?_, trivial, hst, hlt, ?_⟩
    · unfold deqK at hdq
      split at hdq
      · next hk => rw [if_pos hk]; omega
      · next hk => rw [if_neg hk]; omega
    · rw [hw.mask, and_mask]
      exact (hw.filled _ (by omega) hlt).2
  · next kd d x hpc =>
    rw [hpc] at hcok
    simp only at hcok
    obtain ⟨hdq, rfl, hst, hlt, hx⟩ := hcok
    have hnc := h.notClear (by simp [hpc])
    obtain rfl := Option.some.inj hs
    have hw := h.winC h.logE_eq
    have hlo : lo s s.db = s.gotLog.length := by unfold lo; omega
    have hlE := h.logE_eq
    have hp := h.pok
    rw [hlo] at hw
    have hrel := hw.release hlt
    obtain ⟨h1, h2, h3, h4, h5, h6, h7, h8, h9, h10⟩ := h
    refine ⟨?_, h2, h3, h4, ?_, ?_, h7, fun hg => Or.inl (hnc hg), ?_, ?_⟩
    · obtain ⟨t, ht⟩ := h1
      simp only
      rw [← ht] at hx ⊢
      rw [List.getElem?_append_right (Nat.le_refl _)] at hx
      simp only [Nat.sub_self] at hx
      cases t with
      | nil => simp at hx
      | cons y ys =>
        simp only [List.getElem?_cons_zero, Option.some.injEq] at hx
        subst hx
        exact ⟨ys, by simp⟩
    · by_cases he : s.db = s.eb
      · simp only [logE, lo, List.length_append, List.length_singleton] at *
        rw [← he, upd_same]
        rw [he] at hst
        have : max (s.gotLog.length + 1) (s.start s.db) = s.gotLog.length + 1 := by rw [he]; omega
        rw [this]
        have hE := hlE he
        simp only [uD, if_pos he] at hrel
        rw [hE]
        exact hrel
      · rw [uD, if_neg he] at hlt
        simp only [logE, lo, List.length_append, List.length_singleton] at *
        rw [upd_ne _ _ (Ne.symm he)]
        have : max (s.gotLog.length + 1) (s.start s.eb) = max s.gotLog.length (s.start s.eb) := by
          omega
        rw [this]
        exact h5
    · intro he
      simp only at he
      simp only [lo, List.length_append, List.length_singleton, upd_same]
      have : max (s.gotLog.length + 1) (s.start s.db) = s.gotLog.length + 1 := by omega
      rw [this]
      simp only [uD, if_neg he] at hrel
      exact hrel
    · unfold POk at hp ⊢
      simp only
      have hlole : lo s s.eb ≤ max (s.gotLog.length + 1) (s.start s.eb) := by unfold lo; omega
      split
      all_goals (rename_i hq; rw [hq] at hp; simp only at hp ⊢; try exact hp)
      · obtain ⟨ha, hb, hc, hd⟩ := hp
        refine ⟨ha, hb, hc, ?_⟩
        simp only [lo, List.length_append, List.length_singleton]
        omega
      · obtain ⟨ha, hb, hc, hd, he⟩ := hp
        refine ⟨ha, hb, hc, ?_, ?_⟩
        · simp only [lo, List.length_append, List.length_singleton]
          omega
        · by_cases hde : s.db = s.eb
          · rw [← hde, upd_same]
            rw [← hde] at he
            exact he
          · rw [upd_ne _ _ (Ne.symm hde)]; exact he
    · simp only [COk, List.length_append, List.length_singleton]
      exact hdq
  · next kd d hpc =>
    rw [hpc] at hcok
    simp only at hcok
    obtain ⟨hdq, rfl⟩ := hcok
    have hnc := h.notClear (by simp [hpc])
    split at hs
    · next hif =>
      obtain rfl := Option.some.inj hs
      exact h.cpc_only _ s.dequeue (fun hg => Or.inl (hnc hg)) ⟨hdq, rfl, hif, hnc hif⟩
    · next hif =>
      split at hs
      · obtain rfl := Option.some.inj hs
        exact h.cpc_only _ s.dequeue (fun hg => Or.inl (hnc hg)) ⟨by simpa [deqK] using hdq, rfl⟩
      · next hns =>
        obtain rfl := Option.some.inj hs
        refine h.cpc_only _ s.dequeue (fun hg => Or.inl (hnc hg)) ?_
        cases kd with
        | accept => simpa [COk, afterFail, deqK] using hdq
        | getFast => simpa [COk, afterFail, deqK] using hdq
        | getSlow => exact absurd rfl hns
  · next kd d hpc =>
    rw [hpc] at hcok
    simp only at hcok
    obtain ⟨hdq, rfl, hg, hde⟩ := hcok
    obtain rfl := Option.some.inj hs
    obtain ⟨h1, h2, h3, h4, h5, h6, h7, h8, h9, h10⟩ := h
    refine ⟨h1, Or.inl rfl, Nat.le_refl _, h4, h5, fun hh => absurd rfl hh, ?_, ?_, ?_, ?_⟩
    · intro _; exact Or.inl rfl
    · intro _; exact Or.inr ⟨kd, _, rfl⟩
    · unfold POk at h9 ⊢
      simp only
      split
      all_goals (rename_i hq; rw [hq] at h9; simp only at h9 ⊢; try exact h9)
      all_goals simp_all
    · exact ⟨hdq, rfl, hg, rfl⟩
  · next kd d hpc =>
    rw [hpc] at hcok
    simp only at hcok
    obtain ⟨hdq, rfl, hg, hde⟩ := hcok
    obtain rfl := Option.some.inj hs
    obtain ⟨h1, h2, h3, h4, h5, h6, h7, h8, h9, h10⟩ := h
    refine ⟨h1, h2, h3, h4, h5, h6, ?_, ?_, ?_, ?_⟩
    · intro _; exact Or.inl hde
    · intro hh; simp at hh
    · unfold POk at h9 ⊢
      simp only
      split
      all_goals (rename_i hq; rw [hq] at h9; simp only at h9 ⊢; try exact h9)
      all_goals simp_all
    · cases kd with
      | accept => simpa [COk, afterFail, deqK] using hdq
      | getFast => simpa [COk, afterFail, deqK] using hdq
      | getSlow => exact ⟨by simpa [deqK] using hdq, rfl⟩
  · next d hpc =>
    rw [hpc] at hcok
    simp only at hcok
    have hnc := h.notClear (by simp [hpc])
    split at hs
    · next hif =>
      obtain rfl := Option.some.inj hs
      exact h.cpc_only _ s.dequeue (fun hg => Or.inl (hnc hg)) ⟨hcok.1, hcok.2, hif⟩
    · obtain rfl := Option.some.inj hs
      exact h.cpc_only _ s.dequeue (fun hg => Or.inl (hnc hg))
        ⟨by simpa [deqK] using hcok.1, hcok.2⟩
  · next d hpc =>
    rw [hpc] at hcok
    simp only at hcok
    have hnc := h.notClear (by simp [hpc])
    split at hs
    · obtain rfl := Option.some.inj hs
      exact h.cpc_only _ s.dequeue (fun hg => Or.inl (hnc hg)) hcok
    · obtain rfl := Option.some.inj hs
      exact h.cpc_only _ s.dequeue (fun hg => Or.inl (hnc hg))
        ⟨by simpa [deqK] using hcok.1, hcok.2.1⟩
  · next d hpc =>
    rw [hpc] at hcok
    simp only at hcok
    have hnc := h.notClear (by simp [hpc])
    split at hs
    · obtain rfl := Option.some.inj hs
      exact h.cpc_only _ s.dequeue (fun hg => Or.inl (hnc hg))
        ⟨by simpa [deqK] using hcok.1, hcok.2.1⟩
    · next hif =>
      obtain rfl := Option.some.inj hs
      refine h.cpc_only _ s.dequeue (fun hg => Or.inl (hnc hg)) ⟨?_, hcok.2.2⟩
      have := (h.pok.closed hcok.2.2).2
      simp only
      omega
  · next hpc =>
    rw [hpc] at hcok
    simp only at hcok
    have hnc := h.notClear (by simp [hpc])
    split at hs <;> (obtain rfl := Option.some.inj hs;
                     exact h.cpc_only _ s.dequeue (fun hg => Or.inl (hnc hg)) hcok)
  · next hpc =>
    rw [hpc] at hcok
    simp only at hcok
    have hnc := h.notClear (by simp [hpc])
    split at hs
    · next hif =>
      obtain rfl := Option.some.inj hs
      exact h.cpc_only _ s.dequeue (fun hg => Or.inl (hnc hg)) ⟨hcok, hif⟩
    · obtain rfl := Option.some.inj hs
      exact h.cpc_only _ s.dequeue (fun hg => Or.inl (hnc hg)) hcok
  · next hpc =>
    rw [hpc] at hcok
    simp only at hcok
    have hnc := h.notClear (by simp [hpc])
    split at hs
    · next hif =>
      obtain rfl := Option.some.inj hs
      refine h.cpc_only _ s.dequeue (fun hg => Or.inl (hnc hg)) ⟨?_, hcok.2⟩
      have := (h.pok.closed hcok.2).2
      simp only
      omega
    · obtain rfl := Option.some.inj hs
      exact h.cpc_only _ s.dequeue (fun hg => Or.inl (hnc hg)) hcok.1
  all_goals exact absurd hs (by simp)

theorem logE_of {s : St α} (h : ∀ x q, s.ppc ≠ .setGrown x q) : logE s = s.putLog := by
  unfold logE
  split
  · next x q hq => exact absurd hq (h x q)
  · rfl

/-- A producer step that only changes the program counter (and maybe `enqueue`), between states
that are not an unannounced growth. -/
theorem Inv.ppc_only {k : Nat} {s : St α} (h : Inv k s) (c : PPc α) (eq : Nat)
    (h1 : ∀ x q, s.ppc ≠ .setGrown x q) (h2 : ∀ x q, c ≠ .setGrown x q)
    (hp : POk k { s with ppc := c, enqueue := eq }) : Inv k { s with ppc := c, enqueue := eq } := by
  have hl : logE { s with ppc := c, enqueue := eq } = logE s := by
    rw [logE_of h1, logE_of h2]
  obtain ⟨a1, a2, a3, a4, a5, a6, a7, a8, a9, a10⟩ := h
  refine ⟨a1, a2, a3, a4, by rw [hl]; exact a5, a6, ?_, a8, hp, a10⟩
  intro hg
  rcases a7 hg with h | ⟨x, q, h⟩
  · exact Or.inl h
  · exact absurd h (h1 x q)

/-- The consumer's facts survive an append to the put log (while it is not told "closed"). -/
theorem COk.append {s : St α} (h : COk s) (hst : s.status = false)
    (b : Nat → Buf α) (pc : PPc α) (x : α) (fl mg eq : _) (hfl : s.isGrown = true → fl = true) :
    COk { s with bufs := b, ppc := pc, putLog := s.putLog ++ [x], isGrown := fl, maxGrow := mg, enqueue := eq } := by
  unfold COk at h ⊢
  simp only
  have hu : uD s ≤ uD { s with bufs := b, ppc := pc, putLog := s.putLog ++ [x], isGrown := fl, maxGrow := mg, enqueue := eq } := by
    unfold uD
    simp only [List.length_append, List.length_singleton]
    split <;> omega
  split
  all_goals (rename_i hq; rw [hq] at h; simp only [deqK] at h ⊢; try exact h)
  · obtain ⟨ha, hb, hc, hd⟩ := h; exact ⟨ha, hb, hc, Nat.lt_of_lt_of_le hd hu⟩
  · obtain ⟨ha, hb, hc, hd, he⟩ := h
    refine ⟨ha, hb, hc, Nat.lt_of_lt_of_le hd hu, ?_⟩
    rw [List.getElem?_append_left (List.getElem?_eq_some_iff.1 he).1, he]
  · obtain ⟨ha, hb, hc, hd⟩ := h; exact ⟨ha, hb, hfl hc, hd⟩
  · obtain ⟨ha, hb, hc, hd⟩ := h; exact ⟨ha, hb, hfl hc, hd⟩
  all_goals simp_all

theorem inv_pStep {k : Nat} (hk : 1 ≤ k) (z : α) (guard : Bool) {s s' : St α} (h : Inv k s)
    (hs : pStep z guard s = some s') : Inv k s' := by
  unfold pStep at hs
  have hpok := h.pok
  unfold POk at hpok
  split at hs
  · next x hpc =>
    rw [hpc] at hpok
    simp only at hpok
    have hE := logE_of (s := s) (by simp [hpc])
    split at hs
    · next hif =>
      obtain rfl := Option.some.inj hs
      refine h.ppc_only _ s.enqueue (by simp [hpc]) (by simp) ?_
      have hw := h.winE
      rw [hE] at hw
      rw [hpok.1] at hif
      exact ⟨by simpa using hpok.1, hpok.1, hpok.2, hw.room (by omega) hif⟩
    · obtain rfl := Option.some.inj hs
      exact h.ppc_only _ s.enqueue (by simp [hpc]) (by simp) hpok
  · next x p hpc =>
    rw [hpc] at hpok
    simp only at hpok
    have hE := logE_of (s := s) (by simp [hpc])
    obtain ⟨h1, rfl, h3⟩ := hpok
    split at hs
    · next hif =>
      obtain rfl := Option.some.inj hs
      refine h.ppc_only _ s.enqueue (by simp [hpc]) (by simp) ?_
      have hw := h.winE
      rw [hE] at hw
      exact ⟨by simpa using h1, rfl, h3, hw.room (by omega) hif⟩
    · obtain rfl := Option.some.inj hs
      exact h.ppc_only _ s.enqueue (by simp [hpc]) (by simp) ⟨h1, rfl, h3⟩
  · next x p hpc =>
    rw [hpc] at hpok
    simp only at hpok
    have hE := logE_of (s := s) (by simp [hpc])
    obtain ⟨h1, rfl, h3⟩ := hpok
    split at hs
    · next hif =>
      obtain rfl := Option.some.inj hs
      refine h.ppc_only _ s.enqueue (by simp [hpc]) (by simp) ?_
      have hw := h.winE
      rw [hE] at hw
      exact ⟨by simpa using h1, rfl, h3, hw.room (by omega) hif⟩
    · split at hs
      · obtain rfl := Option.some.inj hs
        exact h.ppc_only _ s.enqueue (by simp [hpc]) (by simp) ⟨h1, rfl, h3⟩
      · obtain rfl := Option.some.inj hs; exact h
  · next x p hpc =>
    rw [hpc] at hpok
    simp only at hpok
    obtain ⟨h1, rfl, h3⟩ := hpok
    split at hs
    · next hif =>
      obtain rfl := Option.some.inj hs
      refine h.ppc_only _ s.enqueue (by simp [hpc]) (by simp) ⟨h1, rfl, h3, hif, ?_⟩
      rcases h.flagF hif with h | ⟨x, q, h⟩
      · exact h
      · simp [hpc] at h
    · obtain rfl := Option.some.inj hs
      exact h.ppc_only _ s.enqueue (by simp [hpc]) (by simp) ⟨h1, rfl, h3⟩
  · next x p hpc =>
    rw [hpc] at hpok
    simp only at hpok
    have hE := logE_of (s := s) (by simp [hpc])
    obtain ⟨h1, rfl, h3, hg, hde⟩ := hpok
    obtain rfl := Option.some.inj hs
    have hgl := h.gLe
    obtain ⟨a1, a2, a3, a4, a5, a6, a7, a8, a9, a10⟩ := h
    have hup : upd s.start (s.eb + 1) s.putLog.length (s.eb + 1) = s.putLog.length := upd_same ..
    have hud : upd s.start (s.eb + 1) s.putLog.length s.db = s.start s.db :=
      upd_ne _ _ (by omega)
    have hbd : ∀ nb, upd s.bufs (s.eb + 1) nb s.db = s.bufs s.db :=
      fun nb => upd_ne _ _ (by omega)
    refine ⟨a1, Or.inr (by simp only; omega), ?_, ?_, ?_, ?_, ?_, ?_, ?_, ?_⟩
    · simp only [hup, hud]; omega
    · simp only [hup]; omega
    · have := newBuf_win z (k + s.eb) s.putLog.length (s.bufs s.eb).mask x s.putLog a5.mask rfl
      have hm : max s.gotLog.length s.putLog.length = s.putLog.length := by omega
      simp only [lo, logE, hup, upd_same, List.length_append, List.length_singleton, hm]
      exact this
    · intro _
      simp only [lo, hup, hud, hbd]
      rw [hE] at a5
      rw [← hde] at a5
      exact a5
    · intro _; exact Or.inr ⟨x, _, rfl⟩
    · intro hgt; simp only at hgt; rw [hg] at hgt; simp at hgt
    · exact ⟨h1, rfl, h3, hg, by simp only; omega, hup⟩
    · unfold COk at a10 ⊢
      simp only [deqK, uD, hup, hud] at a10 ⊢
      have hne : ¬ s.db = s.eb + 1 := by omega
      rw [if_pos hde] at a10
      rw [if_neg hne]
      split
      all_goals (rename_i hq; rw [hq] at a10; simp only at a10 ⊢; try exact a10)
      all_goals simp_all
  · next x p hpc =>
    rw [hpc] at hpok
    simp only at hpok
    obtain ⟨h1, rfl, h3, hg, hde, hst⟩ := hpok
    split at hs
    · simp at hs
    · obtain rfl := Option.some.inj hs
      obtain ⟨a1, a2, a3, a4, a5, a6, a7, a8, a9, a10⟩ := h
      refine ⟨a1.trans (List.prefix_append _ _), a2, a3, ?_, ?_, ?_, ?_, ?_, ?_, ?_⟩
      · simp only [List.length_append, List.length_singleton]; omega
      · simp only [logE, hpc] at a5 ⊢
        exact a5
      · intro he
        exact (a6 he).log_append [x]
      · intro hh; simp at hh
      · intro _; exact Or.inl hde
      · simp only [POk, List.length_append, List.length_singleton]
        exact ⟨h1, h3⟩
      · exact COk.append a10 h3 _ _ _ _ _ _ (fun _ => rfl)
  · next x p bump hpc =>
    rw [hpc] at hpok
    simp only at hpok
    have hE := logE_of (s := s) (by simp [hpc])
    obtain ⟨h1, rfl, h3, hr⟩ := hpok
    obtain rfl := Option.some.inj hs
    obtain ⟨a1, a2, a3, a4, a5, a6, a7, a8, a9, a10⟩ := h
    rw [hE] at a5
    refine ⟨a1, a2, a3, a4, ?_, ?_, ?_, a8, ?_, a10⟩
    · simp only [logE, lo, upd_same]
      exact a5.setElem hr x
    · intro he
      simp only at he
      simp only [lo]
      rw [upd_ne _ _ he]
      exact a6 he
    · intro hg
      rcases a7 hg with h | ⟨x, q, h⟩
      · exact Or.inl h
      · simp [hpc] at h
    · refine ⟨?_, rfl, h3, hr, ?_⟩
      · simp only
        cases bump <;> simp_all
      · simp only [upd_same]
        exact setElem_get a5 x
  · next x p hpc =>
    rw [hpc] at hpok
    simp only at hpok
    have hE := logE_of (s := s) (by simp [hpc])
    obtain ⟨h1, rfl, h3, hr, hx⟩ := hpok
    obtain rfl := Option.some.inj hs
    obtain ⟨a1, a2, a3, a4, a5, a6, a7, a8, a9, a10⟩ := h
    rw [hE] at a5
    refine ⟨a1.trans (List.prefix_append _ _), a2, a3, ?_, ?_, ?_, ?_, a8, ?_, ?_⟩
    · simp only [List.length_append, List.length_singleton]; omega
    · simp only [logE, lo, upd_same, List.length_append, List.length_singleton]
      exact a5.publish hr hx rfl
    · intro he
      simp only at he
      simp only [lo]
      rw [upd_ne _ _ he]
      exact (a6 he).log_append [x]
    · intro hg
      rcases a7 hg with h | ⟨x, q, h⟩
      · exact Or.inl h
      · simp [hpc] at h
    · simp only [POk, List.length_append, List.length_singleton]
      exact ⟨h1, h3⟩
    · exact COk.append a10 h3 _ _ _ _ _ _ id
  all_goals exact absurd hs (by simp)

theorem inv_act {k : Nat} (hk : 1 ≤ k) (z : α) (guard : Bool) {s s' : St α} (a : Act α)
    (h : Inv k s) (hs : act z guard s a = some s') : Inv k s' := by
  have hpok := h.pok
  have hcok := h.cok
  unfold POk at hpok
  unfold COk at hcok
  cases a with
  | pStep => exact inv_pStep hk z guard h hs
  | cStep => exact inv_cStep hk h hs
  | pOffer x =>
    simp only [act] at hs; split at hs
    · next hpc =>
      obtain rfl := Option.some.inj hs
      rw [hpc] at hpok
      exact h.ppc_only _ s.enqueue (by simp [hpc]) (by simp) hpok
    · simp at hs
  | pPutFast x =>
    simp only [act] at hs; split at hs
    · next hpc =>
      obtain rfl := Option.some.inj hs
      rw [hpc] at hpok
      simp only at hpok
      exact h.ppc_only _ _ (by simp [hpc]) (by simp) ⟨by simp only; omega, hpok.1, hpok.2⟩
    · simp at hs
  | pPutSlow =>
    simp only [act] at hs; split at hs
    · next x p hpc =>
      obtain rfl := Option.some.inj hs
      rw [hpc] at hpok
      exact h.ppc_only _ s.enqueue (by simp [hpc]) (by simp) hpok
    · simp at hs
  | pClose =>
    simp only [act] at hs; split at hs
    · next hpc =>
      obtain rfl := Option.some.inj hs
      rw [hpc] at hpok
      have hE := logE_of (s := s) (by simp [hpc])
      obtain ⟨a1, a2, a3, a4, a5, a6, a7, a8, a9, a10⟩ := h
      rw [hE] at a5
      refine ⟨a1, a2, a3, a4, a5, a6, ?_, a8, hpok.1, ?_⟩
      · intro hg
        rcases a7 hg with h | ⟨x, q, h⟩
        · exact Or.inl h
        · simp [hpc] at h
      · unfold COk at a10 ⊢
        simp only at a10 ⊢
        split
        all_goals (rename_i hq; rw [hq] at a10; simp only [deqK, uD] at a10 ⊢; try exact a10)
        all_goals simp_all
    · simp at hs
  | cAccept =>
    simp only [act] at hs; split at hs
    · next hpc =>
      obtain rfl := Option.some.inj hs
      rw [hpc] at hcok
      have hnc := h.notClear (by simp [hpc])
      exact h.cpc_only _ s.dequeue (fun hg => Or.inl (hnc hg)) ⟨by simpa [deqK] using hcok, hcok⟩
    · simp at hs
  | cGetFast =>
    simp only [act] at hs; split at hs
    · next hpc =>
      obtain rfl := Option.some.inj hs
      rw [hpc] at hcok
      have hnc := h.notClear (by simp [hpc])
      exact h.cpc_only _ _ (fun hg => Or.inl (hnc hg)) ⟨by simpa [deqK] using hcok, hcok⟩
    · simp at hs
  | cGetSlow =>
    simp only [act] at hs; split at hs
    · next d hpc =>
      obtain rfl := Option.some.inj hs
      rw [hpc] at hcok
      have hnc := h.notClear (by simp [hpc])
      exact h.cpc_only _ s.dequeue (fun hg => Or.inl (hnc hg))
        ⟨by simpa [deqK] using hcok.1, hcok.2⟩
    · simp at hs
  | cIsClosed =>
    simp only [act] at hs; split at hs
    · next hpc =>
      obtain rfl := Option.some.inj hs
      rw [hpc] at hcok
      have hnc := h.notClear (by simp [hpc])
      exact h.cpc_only _ s.dequeue (fun hg => Or.inl (hnc hg)) hcok
    · simp at hs

theorem inv_run {k : Nat} (hk : 1 ≤ k) (z : α) (guard : Bool) (sched : List (Act α)) {s s' : St α}
    (h : Inv k s) (hs : run z guard s sched = some s') : Inv k s' := by
  induction sched generalizing s with
  | nil => obtain rfl := Option.some.inj hs; exact h
  | cons a as ih =>
    simp only [run] at hs
    cases hact : act z guard s a with
    | none => rw [hact] at hs; simp at hs
    | some s1 => rw [hact] at hs; exact ih (inv_act hk z guard a h hact) hs

end Verif.Growable

namespace Verif.Growable
variable {α : Type}

/-! ### The consumer that switched too early -/

/-- The consumer has switched to a buffer that starts after the next item it needs. -/
def Stuck (s : St α) : Prop := s.gotLog.length < s.start s.db

theorem stuck_act {k : Nat} (z : α) (guard : Bool) {s s' : St α} (a : Act α)
    (h : Inv k s) (hst : Stuck s) (hs : act z guard s a = some s') :
    Stuck s' ∧ s'.gotLog = s.gotLog := by
  have hcok := h.cok
  have hpok := h.pok
  have hstarts := h.starts
  have hdb : s.db ≤ s.eb := by rcases h.dbeb with h | h <;> omega
  unfold COk at hcok
  unfold POk at hpok
  unfold Stuck at *
  cases a <;> simp only [act, pStep, cStep] at hs <;> (repeat' split at hs) <;>
    first
    | (simp at hs; done)
    | (obtain rfl := Option.some.inj hs; exact ⟨hst, rfl⟩)
    | (obtain rfl := Option.some.inj hs
       refine ⟨?_, rfl⟩
       simp only
       first
       | omega
       | (rw [upd_ne _ _ (by omega)]; exact hst))
    | (rename_i hpc; rw [hpc] at hcok; simp only at hcok; omega)

theorem stuck_run {k : Nat} (hk : 1 ≤ k) (z : α) (guard : Bool) (sched : List (Act α))
    {s s' : St α} (h : Inv k s) (hst : Stuck s) (hs : run z guard s sched = some s') :
    s'.gotLog = s.gotLog := by
  induction sched generalizing s with
  | nil => obtain rfl := Option.some.inj hs; rfl
  | cons a as ih =>
    simp only [run] at hs
    cases hact : act z guard s a with
    | none => rw [hact] at hs; simp at hs
    | some s1 =>
      rw [hact] at hs
      obtain ⟨h1, h2⟩ := stuck_act z guard a h hst hact
      rw [ih (inv_act hk z guard a h hact) h1 hs, h2]

/-! ### Schedules without that race -/

/-- What additionally holds when no growth is announced between the consumer's two loads. -/
structure Live (s : St α) : Prop where
  live : s.start s.db ≤ s.gotLog.length
  grown : ∀ kd d, s.cpc = .grown kd d → s.isGrown = true → s.gotLog.length = s.start s.eb
  switch : ∀ kd d, s.cpc = .switch kd d → s.gotLog.length = s.start s.eb

theorem Win.notReady {k : Nat} {b : Buf α} {lo u : Nat} {log : List α}
    (h : Win k b lo u log) (hp : b.pos lo ≠ lo + 1) : lo = u := by
  have := h.le
  apply Nat.le_antisymm this
  apply Nat.le_of_not_lt
  intro hlt
  rw [h.pos_eq] at hp
  exact hp (h.filled lo (Nat.le_refl _) hlt).1

theorem live_act {k : Nat} (z : α) {s s' : St α} (a : Act α)
    (h : Inv k s) (hl : Live s) (hs : act z true s a = some s') : Live s' := by
  have hcok := h.cok
  have hpok := h.pok
  have hstarts := h.starts
  have hw := h.winC h.logE_eq
  have hft := h.flagT
  have hdb : s.db ≤ s.eb := by rcases h.dbeb with h | h <;> omega
  obtain ⟨l1, l2, l3⟩ := hl
  unfold COk at hcok
  unfold POk at hpok
  cases a with
  | cStep =>
    simp only [act, cStep] at hs
    split at hs
    · next kd d hpc =>
      rw [hpc] at hcok
      simp only at hcok
      obtain ⟨-, rfl⟩ := hcok
      split at hs
      · obtain rfl := Option.some.inj hs
        exact ⟨l1, by simp, by simp⟩
      · next hif =>
        obtain rfl := Option.some.inj hs
        refine ⟨l1, ?_, by simp⟩
        intro kd d _ hg
        simp only at hg ⊢
        have hlo : lo s s.db = s.gotLog.length := by unfold lo; omega
        rw [hlo] at hw
        have := hw.notReady hif
        rcases hft hg with h1 | ⟨kd, d, h1⟩
        · rw [this, uD, if_neg (by omega)]
        · rw [hpc] at h1; simp at h1
    · obtain rfl := Option.some.inj hs; exact ⟨l1, by simp, by simp⟩
    · obtain rfl := Option.some.inj hs
      exact ⟨by simp only [List.length_append, List.length_singleton]; omega, by simp, by simp⟩
    · next kd d hpc =>
      split at hs
      · next hif =>
        obtain rfl := Option.some.inj hs
        exact ⟨l1, by simp, fun _ _ _ => l2 _ _ hpc hif⟩
      · split at hs
        · obtain rfl := Option.some.inj hs; exact ⟨l1, by simp, by simp⟩
        · obtain rfl := Option.some.inj hs
          refine ⟨l1, ?_, ?_⟩ <;> cases kd <;> simp [afterFail]
    · next kd d hpc =>
      obtain rfl := Option.some.inj hs
      exact ⟨by simp only; rw [l3 _ _ hpc]; exact Nat.le_refl _, by simp, by simp⟩
    · next kd d hpc =>
      obtain rfl := Option.some.inj hs
      refine ⟨l1, ?_, ?_⟩ <;> cases kd <;> simp [afterFail]
    all_goals first
      | (simp at hs; done)
      | (split at hs <;> (obtain rfl := Option.some.inj hs; exact ⟨l1, by simp, by simp⟩))
  | pStep =>
    simp only [act, pStep] at hs
    split at hs
    · split at hs <;> (obtain rfl := Option.some.inj hs; exact ⟨l1, l2, l3⟩)
    · split at hs <;> (obtain rfl := Option.some.inj hs; exact ⟨l1, l2, l3⟩)
    · split at hs
      · obtain rfl := Option.some.inj hs; exact ⟨l1, l2, l3⟩
      · split at hs <;> (obtain rfl := Option.some.inj hs; exact ⟨l1, l2, l3⟩)
    · split at hs <;> (obtain rfl := Option.some.inj hs; exact ⟨l1, l2, l3⟩)
    · next x p hpc =>
      rw [hpc] at hpok
      obtain ⟨_, _, _, hg, hde⟩ := hpok
      obtain rfl := Option.some.inj hs
      refine ⟨?_, ?_, ?_⟩
      · simp only
        rw [upd_ne _ _ (by omega)]
        exact l1
      · intro kd d _ hg'; simp only at hg'; rw [hg] at hg'; simp at hg'
      · intro kd d hc
        simp only at hc
        rw [hc] at hcok
        simp only [hg] at hcok
        simp at hcok
    · split at hs
      · simp at hs
      · next hif =>
        obtain rfl := Option.some.inj hs
        refine ⟨l1, ?_, l3⟩
        intro kd d hc _
        simp only at hc
        simp [hc, CPc.atGrown] at hif
    · obtain rfl := Option.some.inj hs; exact ⟨l1, l2, l3⟩
    · obtain rfl := Option.some.inj hs; exact ⟨l1, l2, l3⟩
    all_goals simp at hs
  | pOffer | pPutFast | pPutSlow | pClose =>
    simp only [act] at hs; split at hs
    · obtain rfl := Option.some.inj hs; exact ⟨l1, l2, l3⟩
    · simp at hs
  | cAccept | cGetFast | cGetSlow | cIsClosed =>
    simp only [act] at hs; split at hs
    · obtain rfl := Option.some.inj hs; exact ⟨l1, by simp, by simp⟩
    · simp at hs

theorem live_run {k : Nat} (hk : 1 ≤ k) (z : α) (sched : List (Act α))
    {s s' : St α} (h : Inv k s) (hl : Live s) (hs : run z true s sched = some s') : Live s' := by
  induction sched generalizing s with
  | nil => obtain rfl := Option.some.inj hs; exact hl
  | cons a as ih =>
    simp only [run] at hs
    cases hact : act z true s a with
    | none => rw [hact] at hs; simp at hs
    | some s1 =>
      rw [hact] at hs
      exact ih (inv_act hk z true a h hact) (live_act z a h hl hact) hs

theorem live_init (z : α) (k m : Nat) : Live (init z (2 ^ k) m) :=
  ⟨by simp [init], by simp [init], by simp [init]⟩

/-! ### Relating the put log to the calls made -/

/-- Items the producer tried to put, in call order. -/
def attempts : Act α → List α
  | .pOffer x | .pPutFast x => [x]
  | _ => []

/-- Items whose put call has begun but not yet taken effect. -/
def inflight (s : St α) : List α :=
  match s.ppc with
  | .idle | .closed => []
  | .oCheck x | .fCheck x _ | .mustSlow x _ | .slow x _ | .canGrow x _ | .alloc x _
  | .setGrown x _ | .write x _ _ | .publish x _ => [x]

theorem act_attempts (z : α) (guard : Bool) {s s' : St α} {a : Act α}
    (h : act z guard s a = some s') :
    (s'.putLog ++ inflight s').Sublist (s.putLog ++ inflight s ++ attempts a) := by
  cases a <;> simp only [act, pStep, cStep] at h <;> (repeat' split at h) <;>
    first
    | (simp at h; done)
    | (obtain rfl := Option.some.inj h; simp [inflight, attempts, *]; done)

theorem run_attempts (z : α) (guard : Bool) (sched : List (Act α)) {s s' : St α}
    (h : run z guard s sched = some s') :
    (s'.putLog ++ inflight s').Sublist (s.putLog ++ inflight s ++ sched.flatMap attempts) := by
  induction sched generalizing s with
  | nil => obtain rfl := Option.some.inj h; simp
  | cons a as ih =>
    simp only [run] at h
    cases ha : act z guard s a with
    | none => rw [ha] at h; simp at h
    | some s1 =>
      rw [ha] at h
      refine (ih h).trans ?_
      have := (act_attempts z guard ha).append (List.Sublist.refl (as.flatMap attempts))
      simpa using this

/-- No non-blocking offer is being executed. -/
def notOffering (s : St α) : Prop := ∀ x, s.ppc ≠ .oCheck x

theorem act_blocking (z : α) (guard : Bool) {s s' : St α} {a : Act α} (hn : notOffering s)
    (hb : ∀ x, a ≠ .pOffer x) (h : act z guard s a = some s') :
    notOffering s' ∧ s'.putLog ++ inflight s' = s.putLog ++ inflight s ++ attempts a := by
  cases a <;> simp only [act, pStep, cStep] at h <;> (repeat' split at h) <;>
    first
    | (simp at h; done)
    | (exact absurd rfl (hb _))
    | (exact absurd (by assumption) (hn _))
    | (obtain rfl := Option.some.inj h
       exact ⟨by simp_all [notOffering], by simp [inflight, attempts, *]⟩)

theorem run_blocking (z : α) (guard : Bool) (sched : List (Act α)) {s s' : St α}
    (hn : notOffering s) (hb : ∀ x, Act.pOffer x ∉ sched) (h : run z guard s sched = some s') :
    s'.putLog ++ inflight s' = s.putLog ++ inflight s ++ sched.flatMap attempts := by
  induction sched generalizing s with
  | nil => obtain rfl := Option.some.inj h; simp
  | cons a as ih =>
    simp only [run] at h
    cases ha : act z guard s a with
    | none => rw [ha] at h; simp at h
    | some s1 =>
      rw [ha] at h
      obtain ⟨h1, h2⟩ := act_blocking z guard hn
        (fun x he => hb x (by rw [he]; exact List.mem_cons_self)) ha
      rw [ih h1 (fun x hx => hb x (List.mem_cons_of_mem _ hx)) h, h2]
      simp

end Verif.Growable

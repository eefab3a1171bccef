import Verif.Spsc

/-! Helper lemmas for the SPSC queue: the inductive invariant. -/

namespace Verif.Spsc
variable {α : Type}

theorem and_mask (k n : Nat) : n &&& (2 ^ k - 1) = n % 2 ^ k := Nat.and_two_pow_sub_one_eq_mod n k

/-- Two positions less than `size` apart use different slots. -/
theorem mod_ne_of_lt {a b size : Nat} (h : a < b) (h2 : b < a + size) : a % size ≠ b % size := by
  intro heq
  have hs : 0 < size := by omega
  have h1 := Nat.div_add_mod a size
  have h3 := Nat.div_add_mod b size
  have hlt : a / size < b / size ∨ b / size ≤ a / size := by omega
  rcases hlt with hlt | hle
  · have : size * (a / size + 1) ≤ size * (b / size) := Nat.mul_le_mul_left _ hlt
    rw [Nat.mul_add] at this; omega
  · have := Nat.mul_le_mul_left size hle
    omega

structure Inv (k : Nat) (s : St α) : Prop where
  mask : s.mask = 2 ^ k - 1
  putLen : s.putLog.length = s.enqueue
  got : s.gotLog = s.putLog.take s.dequeue
  le : s.dequeue ≤ s.enqueue
  cap : s.enqueue ≤ s.dequeue + 2 ^ k
  cacheD : s.enqDeqCache ≤ s.dequeue
  cacheE : s.deqEnqCache ≤ s.enqueue
  slots : ∀ i, s.dequeue ≤ i → i < s.enqueue → s.putLog[i]? = some (s.entries (i % 2 ^ k))
  pwrite : ∀ x, s.ppc = .write x → s.enqueue < s.dequeue + 2 ^ k
  ppub : ∀ x, s.ppc = .publish x →
    s.enqueue < s.dequeue + 2 ^ k ∧ s.entries (s.enqueue % 2 ^ k) = x
  cread : s.cpc = .read → s.dequeue < s.enqueue
  crel : ∀ x, s.cpc = .release x → s.dequeue < s.enqueue ∧ s.putLog[s.dequeue]? = some x

/-- Closes the invariant conjuncts untouched by a step. -/
macro "inv_tac" : tactic => `(tactic| (constructor <;> first
  | assumption
  | exact Nat.le_refl _
  | (intro _ hh; cases hh; done)
  | (intro hh; cases hh; done)
  | (intros; simp only at *; omega)))

theorem inv_init (z : α) (k : Nat) : Inv k (init z (2 ^ k)) := by
  constructor <;> simp [init]

theorem inv_pEnter {k : Nat} {s : St α} (h : Inv k s) (kd : PKind) (x : α) :
    Inv k (pEnter s kd x) := by
  have hp : 0 < 2 ^ k := Nat.two_pow_pos k
  obtain ⟨hm, hpl, hg, hle, hcap, hcD, hcE, hsl, hpw, hpp, hcr, hcl⟩ := h
  unfold pEnter
  split
  · inv_tac
  · inv_tac

theorem inv_cEnter {k : Nat} {s : St α} (h : Inv k s) (kd : CKind) :
    Inv k (cEnter s kd) := by
  obtain ⟨hm, hpl, hg, hle, hcap, hcD, hcE, hsl, hpw, hpp, hcr, hcl⟩ := h
  unfold cEnter
  split
  · inv_tac
  · inv_tac

theorem inv_pStep {k : Nat} {s s' : St α} (h : Inv k s) (hs : pStep s = some s') : Inv k s' := by
  have hp : 0 < 2 ^ k := Nat.two_pow_pos k
  obtain ⟨hm, hpl, hg, hle, hcap, hcD, hcE, hsl, hpw, hpp, hcr, hcl⟩ := h
  unfold pStep at hs
  split at hs
  · next kd x hpc =>
    simp only at hs
    split at hs
    · next hif =>
      obtain rfl := Option.some.inj hs
      inv_tac
    · split at hs <;> (obtain rfl := Option.some.inj hs; inv_tac)
  · next x hpc =>
    split at hs
    · next hif =>
      obtain rfl := Option.some.inj hs
      inv_tac
    · obtain rfl := Option.some.inj hs
      exact ⟨hm, hpl, hg, hle, hcap, hcD, hcE, hsl, hpw, hpp, hcr, hcl⟩
  · next x hpc =>
    obtain rfl := Option.some.inj hs
    have hlt := hpw x hpc
    constructor
    · exact hm
    · exact hpl
    · exact hg
    · exact hle
    · exact hcap
    · exact hcD
    · exact hcE
    · intro i hi1 hi2
      simp only at hi1 hi2 ⊢
      rw [hsl i hi1 hi2, hm, and_mask]
      simp only [setSlot]
      rw [if_neg (mod_ne_of_lt (b := s.enqueue) hi2 (by omega))]
    · simp
    · intro y hy
      simp only [PPc.publish.injEq] at hy
      subst hy
      simp only [hm, and_mask, setSlot, if_true]
      exact ⟨hlt, trivial⟩
    · exact hcr
    · exact hcl
  · next x hpc =>
    obtain rfl := Option.some.inj hs
    obtain ⟨hlt, hx⟩ := hpp x hpc
    constructor
    · exact hm
    · simp [hpl]
    · simp only [hg]
      rw [List.take_append_of_le_length (by omega)]
    · simp only; omega
    · simp only; omega
    · exact hcD
    · simp only; omega
    · intro i hi1 hi2
      simp only at hi1 hi2 ⊢
      by_cases hi : i < s.enqueue
      · rw [List.getElem?_append_left (by omega), hsl i hi1 hi]
      · have : i = s.enqueue := by omega
        subst this
        rw [List.getElem?_append_right (by omega), hpl, hx]
        simp
    · simp
    · simp
    · intro hc; have := hcr hc; simp only; omega
    · intro y hy
      obtain ⟨h1, h2⟩ := hcl y hy
      refine ⟨by simp only; omega, ?_⟩
      simp only
      rw [List.getElem?_append_left (by omega), h2]
  all_goals exact absurd hs (by simp)

theorem inv_cStep {k : Nat} {s s' : St α} (h : Inv k s) (hs : cStep s = some s') : Inv k s' := by
  obtain ⟨hm, hpl, hg, hle, hcap, hcD, hcE, hsl, hpw, hpp, hcr, hcl⟩ := h
  unfold cStep at hs
  split at hs
  · next kd hpc =>
    simp only at hs
    split at hs
    · obtain rfl := Option.some.inj hs
      inv_tac
    · split at hs <;> (obtain rfl := Option.some.inj hs; inv_tac)
  · split at hs <;> (obtain rfl := Option.some.inj hs; inv_tac)
  · split at hs <;> (obtain rfl := Option.some.inj hs; inv_tac)
  · next hpc =>
    obtain rfl := Option.some.inj hs
    have hlt := hcr hpc
    constructor <;> try first | assumption | (intro hh; cases hh; done)
    intro y hy
    simp only [CPc.release.injEq] at hy
    refine ⟨hlt, ?_⟩
    rw [hm, and_mask] at hy
    simp only
    rw [hsl _ (Nat.le_refl _) hlt, hy]
  · next x hpc =>
    obtain rfl := Option.some.inj hs
    obtain ⟨hlt, hx⟩ := hcl x hpc
    constructor
    · exact hm
    · exact hpl
    · simp only [hg]
      rw [List.take_add_one, hx]; rfl
    · simp only; omega
    · simp only; omega
    · simp only; omega
    · exact hcE
    · intro i hi1 hi2
      simp only at hi1 hi2 ⊢
      exact hsl i (by omega) hi2
    · intro y hy; have := hpw y hy; simp only; omega
    · intro y hy; obtain ⟨h1, h2⟩ := hpp y hy; exact ⟨by simp only; omega, h2⟩
    · simp
    · simp
  all_goals exact absurd hs (by simp)

theorem inv_act {k : Nat} {s s' : St α} (a : Act α) (h : Inv k s) (hs : act s a = some s') :
    Inv k s' := by
  cases a with
  | pStep => exact inv_pStep h hs
  | cStep => exact inv_cStep h hs
  | pOffer x =>
    simp only [act] at hs; split at hs
    · obtain rfl := Option.some.inj hs; exact inv_pEnter h _ _
    · simp at hs
  | pPutFast x =>
    simp only [act] at hs; split at hs
    · obtain rfl := Option.some.inj hs; exact inv_pEnter h _ _
    · simp at hs
  | cAccept =>
    simp only [act] at hs; split at hs
    · obtain rfl := Option.some.inj hs; exact inv_cEnter h _
    · simp at hs
  | cGetFast =>
    simp only [act] at hs; split at hs
    · obtain rfl := Option.some.inj hs; exact inv_cEnter h _
    · simp at hs
  | pPutSlow =>
    simp only [act] at hs; split at hs
    · obtain rfl := Option.some.inj hs
      obtain ⟨hm, hpl, hg, hle, hcap, hcD, hcE, hsl, hpw, hpp, hcr, hcl⟩ := h
      inv_tac
    · simp at hs
  | pClose =>
    simp only [act] at hs; split at hs
    · obtain rfl := Option.some.inj hs
      obtain ⟨hm, hpl, hg, hle, hcap, hcD, hcE, hsl, hpw, hpp, hcr, hcl⟩ := h
      inv_tac
    · simp at hs
  | cGetSlow =>
    simp only [act] at hs; split at hs
    · obtain rfl := Option.some.inj hs
      obtain ⟨hm, hpl, hg, hle, hcap, hcD, hcE, hsl, hpw, hpp, hcr, hcl⟩ := h
      inv_tac
    · simp at hs

theorem inv_run {k : Nat} (sched : List (Act α)) {s s' : St α} (h : Inv k s)
    (hs : run s sched = some s') : Inv k s' := by
  induction sched generalizing s with
  | nil => obtain rfl := Option.some.inj hs; exact h
  | cons a as ih =>
    simp only [run] at hs
    cases hact : act s a with
    | none => rw [hact] at hs; simp at hs
    | some s1 => rw [hact] at hs; exact ih (inv_act a h hact) hs

end Verif.Spsc

namespace Verif.Spsc
variable {α : Type}

/-- Items whose put call has begun but not yet taken effect. -/
def inflight (s : St α) : List α :=
  match s.ppc with
  | .load _ x | .mustSlow x | .slow x | .write x | .publish x => [x]
  | .idle | .closed => []

theorem enqCheckRange_val {k : Nat} {s : St α} (h : Inv k s) (hk : 2 ^ k ≤ 2 ^ 64)
    (hroom : s.enqueue ≤ s.dequeue + s.mask) :
    (enqCheckRange s).2 = s.dequeue + s.mask - s.enqueue := by
  have hp : 0 < 2 ^ k := Nat.two_pow_pos k
  have hm := h.mask
  have hle := h.le
  simp only [enqCheckRange]
  generalize 2 ^ k = sz at *
  omega

/-- Remit invariant: the granted budget is always really available. -/
structure RInv (k : Nat) (r : Remit α) : Prop where
  inv : Inv k r.q
  room : r.q.enqueue + (inflight r.q).length + r.budget ≤ r.q.dequeue + r.q.mask

theorem act_mask {s s' : St α} {a : Act α} (h : act s a = some s') : s'.mask = s.mask := by
  cases a <;> simp only [act, pStep, cStep] at h <;> (repeat' split at h) <;>
    first
    | (simp at h; done)
    | (obtain rfl := Option.some.inj h
       first
       | rfl
       | (unfold pEnter; split <;> rfl)
       | (unfold cEnter; split <;> rfl))

theorem cons_frame {s s' : St α} {a : Act α}
    (ha : a = .cAccept ∨ a = .cGetFast ∨ a = .cGetSlow ∨ a = .cStep)
    (h : act s a = some s') :
    s'.enqueue = s.enqueue ∧ s'.ppc = s.ppc ∧ s'.putLog = s.putLog ∧ s.dequeue ≤ s'.dequeue := by
  rcases ha with rfl | rfl | rfl | rfl <;> simp only [act, cStep] at h <;>
    (repeat' split at h) <;>
    first
    | (simp at h; done)
    | (obtain rfl := Option.some.inj h
       first
       | exact ⟨rfl, rfl, rfl, Nat.le_refl _⟩
       | exact ⟨rfl, rfl, rfl, Nat.le_succ _⟩
       | (unfold cEnter; split <;> exact ⟨rfl, rfl, rfl, Nat.le_refl _⟩))

/-- A producer step that does not hit a full buffer keeps the pending item. -/
theorem pStep_effect {s s' : St α} (h : act s .pStep = some s')
    (hroom : s.enqueue ≤ s.dequeue + s.mask) :
    s'.putLog ++ inflight s' = s.putLog ++ inflight s ∧
    s'.enqueue + (inflight s').length = s.enqueue + (inflight s).length ∧
    s'.dequeue = s.dequeue := by
  simp only [act, pStep] at h
  split at h
  · next kd x hpc =>
    rw [if_pos hroom] at h
    obtain rfl := Option.some.inj h
    simp [inflight, hpc]
  · next x hpc =>
    rw [if_pos hroom] at h
    obtain rfl := Option.some.inj h
    simp [inflight, hpc]
  · next x hpc =>
    obtain rfl := Option.some.inj h
    simp [inflight, hpc]
  · next x hpc =>
    obtain rfl := Option.some.inj h
    simp [inflight, hpc]
  all_goals simp at h

theorem pOffer_effect {s s' : St α} {x : α} (h : act s (.pOffer x) = some s') :
    s.ppc = .idle ∧ inflight s = [] ∧ inflight s' = [x] ∧ s'.putLog = s.putLog ∧
      s'.enqueue = s.enqueue ∧ s'.dequeue = s.dequeue := by
  simp only [act] at h
  split at h
  · next hpc =>
    obtain rfl := Option.some.inj h
    refine ⟨hpc, by simp [inflight, hpc], ?_⟩
    unfold pEnter
    split <;> simp [inflight]
  · simp at h

/-- What one remit action attempts to put. -/
def rattempt : RAct α → List α
  | .offer x => [x]
  | _ => []

theorem ract_cons {k : Nat} {r r' : Remit α} {a : Act α} {b : RAct α} (h : RInv k r)
    (hc : a = .cAccept ∨ a = .cGetFast ∨ a = .cGetSlow ∨ a = .cStep)
    (ha : (act r.q a).map (fun q => { r with q := q }) = some r') (hb : rattempt b = []) :
    RInv k r' ∧
      r'.q.putLog ++ inflight r'.q = r.q.putLog ++ inflight r.q ++ rattempt b := by
  obtain ⟨hi, hr⟩ := h
  cases hq : act r.q a with
  | none => rw [hq] at ha; simp at ha
  | some q =>
    rw [hq] at ha
    obtain rfl := Option.some.inj ha
    obtain ⟨h1, h2, h3, h4⟩ := cons_frame hc hq
    have hif : inflight q = inflight r.q := by simp [inflight, h2]
    refine ⟨⟨inv_act _ hi hq, ?_⟩, by simp [h3, hif, hb]⟩
    simp only [h1, hif, act_mask hq]
    omega

theorem ract_inv {k : Nat} (hk : 2 ^ k ≤ 2 ^ 64) {r r' : Remit α} {a : RAct α} (h : RInv k r)
    (ha : ract r a = some r') :
    RInv k r' ∧
      r'.q.putLog ++ inflight r'.q = r.q.putLog ++ inflight r.q ++ rattempt a := by
  obtain ⟨hi, hr⟩ := h
  cases a with
  | check =>
    simp only [ract] at ha
    split at ha
    · next hpc =>
      split at ha
      · have hv := enqCheckRange_val hi hk (by omega)
        obtain rfl := Option.some.inj ha
        have hif : inflight (enqCheckRange r.q).1 = inflight r.q := rfl
        refine ⟨⟨?_, ?_⟩, by simp [rattempt, enqCheckRange, inflight]⟩
        · obtain ⟨hm, hpl, hg, hle, hcap, hcD, hcE, hsl, hpw, hpp, hcr, hcl⟩ := hi
          inv_tac
        · simp only [hv, hif]
          have : inflight r.q = [] := by simp [inflight, hpc]
          simp only [this, List.length_nil, enqCheckRange] at *
          omega
      · simp at ha
    · simp at ha
  | offer x =>
    simp only [ract] at ha
    split at ha
    · next hb =>
      cases hq : act r.q (.pOffer x) with
      | none => rw [hq] at ha; simp at ha
      | some q =>
        rw [hq] at ha
        obtain rfl := Option.some.inj ha
        obtain ⟨_, h1, h2, h3, h4, h5⟩ := pOffer_effect hq
        refine ⟨⟨inv_act _ hi hq, ?_⟩, by simp [h1, h2, h3, rattempt]⟩
        simp only [h2, h4, h5, act_mask hq, List.length_singleton]
        simp only [h1, List.length_nil] at hr
        omega
    · simp at ha
  | stop =>
    obtain rfl := Option.some.inj ha
    exact ⟨⟨hi, by simp only at *; omega⟩, by simp [rattempt]⟩
  | pStep =>
    simp only [ract] at ha
    cases hq : act r.q .pStep with
    | none => rw [hq] at ha; simp at ha
    | some q =>
      rw [hq] at ha
      obtain rfl := Option.some.inj ha
      obtain ⟨h1, h2, h3⟩ := pStep_effect hq (by omega)
      refine ⟨⟨inv_act _ hi hq, ?_⟩, by simp [h1, rattempt]⟩
      simp only [h2, h3, act_mask hq]
      exact hr
  | cAccept => exact ract_cons (a := .cAccept) ⟨hi, hr⟩ (by simp) ha (by rfl)
  | cGetFast => exact ract_cons (a := .cGetFast) ⟨hi, hr⟩ (by simp) ha (by rfl)
  | cGetSlow => exact ract_cons (a := .cGetSlow) ⟨hi, hr⟩ (by simp) ha (by rfl)
  | cStep => exact ract_cons (a := .cStep) ⟨hi, hr⟩ (by simp) ha (by rfl)

theorem rrun_inv {k : Nat} (hk : 2 ^ k ≤ 2 ^ 64) (sched : List (RAct α)) {r r' : Remit α}
    (h : RInv k r) (hr : rrun r sched = some r') :
    RInv k r' ∧ r'.q.putLog ++ inflight r'.q =
      r.q.putLog ++ inflight r.q ++ sched.flatMap rattempt := by
  induction sched generalizing r with
  | nil => obtain rfl := Option.some.inj hr; exact ⟨h, by simp⟩
  | cons a as ih =>
    simp only [rrun] at hr
    cases ha : ract r a with
    | none => rw [ha] at hr; simp at hr
    | some r1 =>
      rw [ha] at hr
      obtain ⟨h1, h2⟩ := ract_inv hk h ha
      obtain ⟨h3, h4⟩ := ih h1 hr
      exact ⟨h3, by rw [h4, h2]; simp⟩

/-! ### Relating the put log to the calls made -/

/-- Items the producer tried to put, in call order. -/
def attempts : Act α → List α
  | .pOffer x | .pPutFast x => [x]
  | _ => []

theorem act_attempts {s s' : St α} {a : Act α} (h : act s a = some s') :
    (s'.putLog ++ inflight s').Sublist (s.putLog ++ inflight s ++ attempts a) := by
  cases a <;> simp only [act, pStep, cStep] at h <;> (repeat' split at h) <;>
    first
    | (simp at h; done)
    | (obtain rfl := Option.some.inj h
       first
       | (simp [inflight, attempts, *]; done)
       | (unfold pEnter; split <;> simp [inflight, attempts, *]; done)
       | (unfold cEnter; split <;> simp [inflight, attempts, *]; done))

theorem run_attempts (sched : List (Act α)) {s s' : St α} (h : run s sched = some s') :
    (s'.putLog ++ inflight s').Sublist (s.putLog ++ inflight s ++ sched.flatMap attempts) := by
  induction sched generalizing s with
  | nil => obtain rfl := Option.some.inj h; simp
  | cons a as ih =>
    simp only [run] at h
    cases ha : act s a with
    | none => rw [ha] at h; simp at h
    | some s1 =>
      rw [ha] at h
      refine (ih h).trans ?_
      have := (act_attempts ha).append (List.Sublist.refl (as.flatMap attempts))
      simpa using this

/-- A schedule that only uses the blocking put (`PutFast` then `PutSlow`). -/
def blockingOnly (sched : List (Act α)) : Prop := ∀ x, Act.pOffer x ∉ sched

/-- No non-blocking offer is being executed. -/
def notOffering (s : St α) : Prop := ∀ x, s.ppc ≠ .load .offer x

theorem act_blocking {s s' : St α} {a : Act α} (hn : notOffering s) (hb : ∀ x, a ≠ .pOffer x)
    (h : act s a = some s') :
    notOffering s' ∧ s'.putLog ++ inflight s' = s.putLog ++ inflight s ++ attempts a := by
  cases a with
  | pOffer x => exact absurd rfl (hb x)
  | pStep =>
    simp only [act, pStep] at h
    split at h
    · next kd x hpc =>
      cases kd with
      | offer => exact absurd hpc (hn x)
      | putFast =>
        split at h <;> (obtain rfl := Option.some.inj h; exact ⟨by simp [notOffering], by simp [inflight, attempts, hpc]⟩)
    · next x hpc =>
      split at h <;> (obtain rfl := Option.some.inj h)
      · exact ⟨by simp [notOffering], by simp [inflight, attempts, hpc]⟩
      · exact ⟨hn, by simp [attempts]⟩
    all_goals first
      | (simp at h; done)
      | (rename_i x hpc; obtain rfl := Option.some.inj h;
         exact ⟨by simp [notOffering], by simp [inflight, attempts, hpc]⟩)
  | pPutFast x =>
    simp only [act] at h
    split at h
    · next hpc =>
      obtain rfl := Option.some.inj h
      unfold pEnter
      split <;> exact ⟨by simp [notOffering], by simp [inflight, attempts, hpc]⟩
    · simp at h
  | pPutSlow | pClose =>
    simp only [act] at h
    split at h
    · rename_i hpc
      obtain rfl := Option.some.inj h
      exact ⟨by simp [notOffering], by simp [inflight, attempts, hpc]⟩
    · simp at h
  | cAccept | cGetFast | cGetSlow | cStep =>
    obtain ⟨_, h2, h3, _⟩ := cons_frame (by simp) h
    exact ⟨by intro x; rw [h2]; exact hn x, by simp [inflight, h2, h3, attempts]⟩

theorem run_blocking (sched : List (Act α)) {s s' : St α} (hn : notOffering s)
    (hb : blockingOnly sched) (h : run s sched = some s') :
    s'.putLog ++ inflight s' = s.putLog ++ inflight s ++ sched.flatMap attempts := by
  induction sched generalizing s with
  | nil => obtain rfl := Option.some.inj h; simp
  | cons a as ih =>
    simp only [run] at h
    cases ha : act s a with
    | none => rw [ha] at h; simp at h
    | some s1 =>
      rw [ha] at h
      obtain ⟨h1, h2⟩ := act_blocking hn (fun x hx => hb x (by simp [hx])) ha
      rw [ih h1 (fun x hx => hb x (by simp [hx])) h, h2]
      simp

end Verif.Spsc

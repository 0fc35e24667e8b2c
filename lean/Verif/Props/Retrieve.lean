import Verif.Lemmas.Retrieve
import Verif.Props.Subsymbolic
/-! # Properties C21, C22 and C23: retrieval -/
namespace Verif.Props
open Verif Verif.Spec

/-! ## C21 -/

/-- A chunk of memory (with its traces) that a retrieval without subsymbolic computation may return. -/
def Eligible (bv : BV) (other : Chunk) (now : ℚ) (st : RBuf) (want : Option Bool) (q : Chunk × List ℚ) : Prop :=
  Asked bv other q.1 ∧ StoredBefore now q.2 ∧ PassesRecency st.finst st.recent want q.1

/-- What C21 says about the outcome: a chunk is returned that is eligible and after which (in the order of memory, that is of
first addition: C18) no other is; none is returned exactly if none is eligible. `elig` says which entries are eligible. -/
def SymOutcome (elig : Chunk × List ℚ → Prop) (data : List (Chunk × List ℚ)) (res : Option Chunk) : Prop :=
  (∀ c, res = some c → ∃ pre l post, data = pre ++ (c, l) :: post ∧ elig (c, l) ∧ ∀ q ∈ post, ¬ elig q) ∧
  (res = Option.none ↔ ∀ q ∈ data, ¬ elig q)

theorem symOutcome_congr {e e' : Chunk × List ℚ → Prop} {data : List (Chunk × List ℚ)} {res : Option Chunk}
    (h : ∀ q ∈ data, e q ↔ e' q) (ho : SymOutcome e data res) : SymOutcome e' data res := by
  refine ⟨fun c hc => ?_, ?_⟩
  · obtain ⟨pre, l, post, h1, h2, h3⟩ := ho.1 c hc
    subst h1
    exact ⟨pre, l, post, rfl, (h _ (by simp)).mp h2, fun q hq hh => h3 q hq ((h q (by simp [hq])).mpr hh)⟩
  · rw [ho.2]
    exact ⟨fun hh q hq hc => hh q hq ((h q hq).mpr hc), fun hh q hq hc => hh q hq ((h q hq).mp hc)⟩

/-- C21, with matching as the code does it (`<=`, see C02): for every request whatsoever. -/
theorem C21_matching (P : Py) (p : RParams) (st st' : RBuf) (now : ℚ) (other : Chunk) (bv : BV) (bufs : List (String × Option Chunk))
    (want : Option Bool) (draws : ℕ → ℝ) (res : Option Chunk) (t : ℝ) (cf : P.H.CollisionFree) (hsub : p.subsymbolic = false)
    (hd : ∀ q ∈ st.dm.data, Plain q.1) (hrec : ∀ d, some d ∈ st.recent → Plain d)
    (h : st.retrieve P p now other bv bufs want draws = (st', .ok (res, t))) :
    ∃ reg' req, resolveChunk P bv false st.reg other = (reg', .ok req) ∧
      SymOutcome (fun q => (req.le P.H BV.init q.1).1 = true ∧ StoredBefore now q.2 ∧ PassesRecency st.finst st.recent want q.1)
        st.dm.data res ∧
      st'.dm = st.dm ∧ (res = Option.none → t = p.ruleFiring) ∧ (∀ c, res = some c → c.slots ≠ [] → t = 0) := by
  simp only [RBuf.retrieve, hsub, Bool.false_eq_true, if_false] at h
  split at h
  · simp at h
  · next reg' req hreq =>
    split at h
    · simp at h
    · next res' hres =>
      simp only [Prod.mk.injEq, Except.ok.injEq] at h
      obtain ⟨rfl, rfl, rfl⟩ := h
      refine ⟨reg', req, hreq, ?_, rfl, ?_, ?_⟩
      · refine symOutcome_congr (e := fun q => recencySkips P.H st.finst st.recent want q.1 = false ∧
          (req.le P.H BV.init q.1).1 = true ∧ StoredBefore now q.2) ?_ ?_
        · intro q hq
          rw [recencySkips_iff cf (hd q hq) hrec]; tauto
        · rcases symLoop_ok hres with ⟨c, pre, l, post, h1, h2, h3, h4⟩ | ⟨h1, h2⟩
          · subst h1
            refine ⟨?_, by simp, fun hh => absurd h3 (hh (c, l) (by rw [h2]; simp))⟩
            rintro _ ⟨⟩
            exact ⟨pre, l, post, h2, h3, h4⟩
          · subst h1
            exact ⟨by simp, fun _ => h2, fun _ => rfl⟩
      · rintro rfl; rfl
      · rintro c rfl hc
        have : c.slots.isEmpty = false := by simpa using hc
        simp [notRetrieved, this]

/-- C21: the chunk returned fits the description, was stored before, passes the test of recency, and is the last such in the
order of first addition; none is returned exactly if there is none. -/
theorem C21_retrieval (P : Py) (p : RParams) (st st' : RBuf) (now : ℚ) (other : Chunk) (bv : BV) (bufs : List (String × Option Chunk))
    (want : Option Bool) (draws : ℕ → ℝ) (res : Option Chunk) (t : ℝ) (cf : P.H.CollisionFree) (hsub : p.subsymbolic = false)
    (hreach : Reach P.toPyEnv st.reg) (ho : Named other) (hg : GoodRequest bv other)
    (hd : ∀ q ∈ st.dm.data, DataChunk q.1 ∧ EmptyCovered bv other q.1) (hrec : ∀ d, some d ∈ st.recent → Plain d)
    (h : st.retrieve P p now other bv bufs want draws = (st', .ok (res, t))) :
    SymOutcome (Eligible bv other now st want) st.dm.data res := by
  obtain ⟨reg', req, hreq, hout, _⟩ := C21_matching P p st st' now other bv bufs want draws res t cf hsub
    (fun q hq => (hd q hq).1.plain) hrec h
  have hr := (resolveChunk_spec cf hreach ho hreq).1
  refine symOutcome_congr ?_ hout
  intro q hq
  simp only [Eligible]
  rw [le_asked cf hr hg (hd q hq).1 (hd q hq).2]

/-- C21: a retrieval does not raise if the request can be resolved and every chunk has a trace. -/
theorem C21_success (P : Py) (p : RParams) (st : RBuf) (now : ℚ) (other : Chunk) (bv : BV) (bufs : List (String × Option Chunk))
    (want : Option Bool) (draws : ℕ → ℝ) (cf : P.H.CollisionFree) (hsub : p.subsymbolic = false)
    (hreach : Reach P.toPyEnv st.reg) (ho : Named other) (hg : GoodRequest bv other)
    (hty : (∃ fs, alook other.typ st.reg = some fs ∧ ∀ n x, MentionsSlot other n x → n ∈ fs) ∨
      (other.typ ≠ "_manual" ∧ other.typ ≠ "_visual" ∧ other.typ ≠ "_visuallocation" ∧ P.typeOk other.typ = true ∧
        ∀ n x, MentionsSlot other n x → P.fieldOk n = true))
    (htr : ∀ q ∈ st.dm.data, q.2 ≠ []) :
    ∃ st' res t, st.retrieve P p now other bv bufs want draws = (st', .ok (res, t)) := by
  obtain ⟨reg', req, hreq⟩ := resolveChunk_success cf hreach ho (fun n x hx => let ⟨a, b, c, _⟩ := hg n x hx; ⟨a, b, c⟩) hty
  obtain ⟨res, hres⟩ := symLoop_total (H := P.H) (req := req) (now := now) (skip := recencySkips P.H st.finst st.recent want) st.dm.data Option.none
    (fun q hq _ _ => htr q hq)
  exact ⟨_, res, _, by simp only [RBuf.retrieve, hreq, hsub, Bool.false_eq_true, if_false, hres]; rfl⟩

/-! ## C22 -/

theorem contribution_data {m m' : DecMem} (h : m'.data = m.data) (S : ℝ) (restricted only : Bool) (i : Chunk) (W : ℝ) (o : Option Chunk) :
    contribution m' S restricted only i W o = contribution m S restricted only i W o := by
  cases o with
  | none => rfl
  | some k => simp only [contribution, strength_data h]

theorem pmScore_iff (H : PyHash) (p : RParams) (req c : Chunk) (x : ℝ) : pmScore H p req c = some x ↔ Fits H p req c x := by
  simp only [pmScore]
  constructor
  · split
    · next hp =>
      obtain ⟨st, hst⟩ := C07_never_rejects H ⟨true, p.penalty, p.sims⟩ rfl BV.init req c
      rw [hst]
      rintro ⟨⟩
      exact .partly hp hst
    · next hp =>
      split
      · next hle => rintro ⟨⟩; exact .exact (by simpa using hp) hle
      · rintro ⟨⟩
  · rintro (⟨hp, hle⟩ | ⟨hp, hst⟩)
    · simp [hp, hle]
    · simp [hp, hst]

/-- One candidate. -/
theorem candidate_spec {H : PyHash} (cf : H.CollisionFree) {p : RParams} {req : Chunk} {now : ℚ} {finst : ℕ} {recent : List (Option Chunk)}
    {want : Option Bool} {bufs : List (String × Option Chunk)} {draws : ℕ → ℝ} (hb : GoodSources p bufs) (hn : 0 ≤ p.noise) {m m' m'' : DecMem}
    (hm : Counted H m') (hd : m'.data = m.data) (ha : m'.act = m.act) {k : ℕ} {c : Chunk} {l : List ℚ}
    (hk : m.data[k]? = some (c, l)) (hc : Plain c) (hpass : PassesRecency finst recent want c) {o : Option ℝ}
    (h : candidateActivation H p req now bufs (draws k) m' c l = (m'', .ok o)) :
    Counted H m'' ∧ m''.data = m.data ∧ m''.act = m.act ∧
      ∀ d a, HasActivation H p req now finst recent want bufs draws m k d a ↔ o = some a ∧ d = c := by
  have hno : (∀ pm b, Fits H p req c pm →
      baselevel now l p.bll p.decay ((cdLook H c m.act).map (fun q : ℚ => (q : ℝ))) p.optimized ≠ .ok b) →
      ∀ d a, HasActivation H p req now finst recent want bufs draws m k d a ↔ (Option.none : Option ℝ) = some a ∧ d = c := by
    intro hh d a
    simp only [reduceCtorEq, false_and, iff_false]
    rintro ⟨l', pm, b, h1, _, h3, h4, _⟩
    rw [hk] at h1; cases h1
    exact hh pm b h3 h4
  simp only [candidateActivation, ha] at h
  split at h
  · next hpm =>
    cases h
    refine ⟨hm, hd, ha, hno ?_⟩
    intro pm b hf _
    rw [← pmScore_iff, hpm] at hf; cases hf
  · next pm hpm =>
    split at h
    · next hbl =>
      cases h
      refine ⟨hm, hd, ha, hno ?_⟩
      intro _ b _ hh; rw [hbl] at hh; cases hh
    · simp at h
    · next b hbl =>
      obtain ⟨m1, hsp, hc1, hd1, ha1⟩ := spreading_spec cf p.S p.restricted p.only bufs hb.plain hc p.weights m' 0 hm hb.known
      rw [hsp] at h
      simp only [instNoise, if_neg (not_lt.mpr hn)] at h
      have e : (p.weights.map (fun q => contribution m' p.S p.restricted p.only c q.2 ((alook q.1 bufs).getD Option.none))) =
          (p.weights.map (fun q => contribution m p.S p.restricted p.only c q.2 ((alook q.1 bufs).getD Option.none))) :=
        List.map_congr_left (fun q _ => contribution_data hd _ _ _ _ _ _)
      rw [e, zero_add] at h
      have h' : (m1, (Except.ok (some (b + (p.weights.map (fun q => contribution m p.S p.restricted p.only c q.2 ((alook q.1 bufs).getD Option.none))).sum
          + pm + (if p.noise = 0 then 0 else draws k))) : Except PyErr (Option ℝ))) = (m'', .ok o) := by
        rw [← h]; split <;> simp_all
      simp only [Prod.mk.injEq, Except.ok.injEq] at h'
      obtain ⟨rfl, rfl⟩ := h'
      refine ⟨hc1, hd1.trans hd, ha1.trans ha, ?_⟩
      intro d a
      constructor
      · rintro ⟨l', pm', b', h1, _, h3, h4, rfl⟩
        rw [hk] at h1; cases h1
        rw [← pmScore_iff, hpm] at h3; cases h3
        rw [hbl] at h4; cases h4
        exact ⟨rfl, rfl⟩
      · rintro ⟨h1, rfl⟩
        cases h1
        exact ⟨l, pm, b, hk, hpass, (pmScore_iff ..).mp hpm, hbl, rfl⟩

/-- What is known after the first `k` chunks: the best is a candidate at least as active as the threshold, the first of
those with maximal activation. -/
def BestSoFar (thr : ℝ) (act : ℕ → Chunk → ℝ → Prop) (k : ℕ) : Best → Prop
  | Option.none => ∀ j d b, j < k → act j d b → b < thr
  | some (c, a) => thr ≤ a ∧ ∃ i, i < k ∧ act i c a ∧ ∀ j d b, j < k → act j d b → b ≤ a ∧ (j < i → b < a)

theorem better_spec {thr : ℝ} {act : ℕ → Chunk → ℝ → Prop} {k : ℕ} {best : Best} (h : BestSoFar thr act k best) {c : Chunk} {a : ℝ}
    (hk : ∀ d b, act k d b ↔ b = a ∧ d = c) : BestSoFar thr act (k + 1) (better thr best c a) := by
  have hlast : ∀ j d b, j < k + 1 → act j d b → (j < k ∧ act j d b) ∨ (j = k ∧ b = a ∧ d = c) := by
    intro j d b hj hact
    rcases Nat.lt_succ_iff_lt_or_eq.mp hj with h | rfl
    · exact .inl ⟨h, hact⟩
    · exact .inr ⟨rfl, (hk d b).mp hact⟩
  have hself : act k c a := (hk c a).mpr ⟨rfl, rfl⟩
  cases best with
  | none =>
    simp only [better]
    split
    · next hs =>
      have hs : thr ≤ a := by simpa [retrievalSuccess] using hs
      refine ⟨hs, k, Nat.lt_succ_self k, hself, ?_⟩
      intro j d b hj hact
      rcases hlast j d b hj hact with ⟨hj', hact'⟩ | ⟨rfl, rfl, _⟩
      · have := h j d b hj' hact'
        exact ⟨(this.trans_le hs).le, fun _ => this.trans_le hs⟩
      · exact ⟨le_refl _, fun hh => absurd hh (lt_irrefl _)⟩
    · next hs =>
      have hs : a < thr := by simpa [retrievalSuccess] using hs
      intro j d b hj hact
      rcases hlast j d b hj hact with ⟨hj', hact'⟩ | ⟨_, rfl, _⟩
      · exact h j d b hj' hact'
      · exact hs
  | some x =>
    obtain ⟨c0, a0⟩ := x
    obtain ⟨ht, i, hi, hact0, hall⟩ := h
    simp only [better]
    split
    · next hs =>
      simp only [retrievalSuccess, Bool.and_eq_true, decide_eq_true_eq] at hs
      refine ⟨hs.1, k, Nat.lt_succ_self k, hself, ?_⟩
      intro j d b hj hact
      rcases hlast j d b hj hact with ⟨hj', hact'⟩ | ⟨rfl, rfl, _⟩
      · have := (hall j d b hj' hact').1
        exact ⟨(this.trans_lt hs.2).le, fun _ => this.trans_lt hs.2⟩
      · exact ⟨le_refl _, fun hh => absurd hh (lt_irrefl _)⟩
    · next hs =>
      simp only [retrievalSuccess, Bool.and_eq_true, decide_eq_true_eq, not_and, not_lt] at hs
      refine ⟨ht, i, by omega, hact0, ?_⟩
      intro j d b hj hact
      rcases hlast j d b hj hact with ⟨hj', hact'⟩ | ⟨rfl, rfl, _⟩
      · exact hall j d b hj' hact'
      · refine ⟨?_, fun hh => by omega⟩
        by_contra hc
        push Not at hc
        exact absurd (hs (ht.trans hc.le)) (not_le.mpr hc)

theorem bestSoFar_skip {thr : ℝ} {act : ℕ → Chunk → ℝ → Prop} {k : ℕ} {best : Best} (h : BestSoFar thr act k best)
    (hk : ∀ d b, ¬ act k d b) : BestSoFar thr act (k + 1) best := by
  have hlast : ∀ j d b, j < k + 1 → act j d b → j < k := by
    intro j d b hj hact
    rcases Nat.lt_succ_iff_lt_or_eq.mp hj with h | rfl
    · exact h
    · exact absurd hact (hk d b)
  cases best with
  | none => intro j d b hj hact; exact h j d b (hlast j d b hj hact) hact
  | some x =>
    obtain ⟨c0, a0⟩ := x
    obtain ⟨ht, i, hi, hact0, hall⟩ := h
    exact ⟨ht, i, by omega, hact0, fun j d b hj hact => hall j d b (hlast j d b hj hact) hact⟩

theorem subLoop_spec {H : PyHash} (cf : H.CollisionFree) {p : RParams} {req : Chunk} {now : ℚ} {finst : ℕ} {recent : List (Option Chunk)}
    {want : Option Bool} {bufs : List (String × Option Chunk)} {draws : ℕ → ℝ} (hb : GoodSources p bufs) (hn : 0 ≤ p.noise) {m : DecMem}
    (hp : ∀ q ∈ m.data, Plain q.1) (hrec : ∀ d, some d ∈ recent → Plain d) :
    ∀ (rest pre : List (Chunk × List ℚ)) (m' m'' : DecMem) (best best' : Best), m.data = pre ++ rest → Counted H m' → m'.data = m.data →
      m'.act = m.act → BestSoFar p.threshold (HasActivation H p req now finst recent want bufs draws m) pre.length best →
      subLoop H p req now (recencySkips H finst recent want) bufs draws pre.length rest m' best = (m'', best', Option.none) →
      m''.data = m.data ∧ Counted H m'' ∧
        BestSoFar p.threshold (HasActivation H p req now finst recent want bufs draws m) m.data.length best'
  | [], pre, m', m'', best, best', hd, hm, hd', ha', hbest, h => by
    simp only [subLoop, Prod.mk.injEq, and_true] at h
    obtain ⟨rfl, rfl⟩ := h
    rw [List.append_nil] at hd
    rw [hd]
    exact ⟨hd'.trans hd, hm, hbest⟩
  | (c, l) :: r, pre, m', m'', best, best', hd, hm, hd', ha', hbest, h => by
    have hk : m.data[pre.length]? = some (c, l) := by rw [hd]; simp
    have hc : Plain c := hp (c, l) (by rw [hd]; simp)
    have hd2 : m.data = (pre ++ [(c, l)]) ++ r := by rw [hd]; simp
    have hlen : (pre ++ [(c, l)]).length = pre.length + 1 := by simp
    have ih := fun m' best => subLoop_spec (req := req) (now := now) (finst := finst) (want := want) (draws := draws) cf hb hn hp hrec r (pre ++ [(c, l)]) m' m'' best best' hd2
    rw [hlen] at ih
    simp only [subLoop] at h
    split at h
    · next hs =>
      refine ih m' best hm hd' ha' (bestSoFar_skip hbest ?_) h
      rintro d b ⟨l', _, _, h1, h2, _⟩
      rw [hk] at h1; cases h1
      rw [← recencySkips_iff cf hc hrec, hs] at h2; cases h2
    · next hs =>
      have hpass : PassesRecency finst recent want c := (recencySkips_iff cf hc hrec).mp (by simpa using hs)
      split at h
      · simp at h
      · next m1 hcand =>
        obtain ⟨c1, c2, c3, c4⟩ := candidate_spec cf hb hn hm hd' ha' hk hc hpass hcand
        exact ih m1 best c1 c2 c3 (bestSoFar_skip hbest (fun d b hh => by have := (c4 d b).mp hh; simp at this)) h
      · next m1 a hcand =>
        obtain ⟨c1, c2, c3, c4⟩ := candidate_spec cf hb hn hm hd' ha' hk hc hpass hcand
        refine ih m1 _ c1 c2 c3 (better_spec hbest (fun d b => ?_)) h
        rw [c4 d b, Option.some.injEq, eq_comm]

/-- What C22 says about the outcome. `cond` is the condition under which the latency of the chunk is claimed. -/
def SubOutcome (p : RParams) (act : ℕ → Chunk → ℝ → Prop) (st st' : RBuf) (cond : Chunk → Prop) : Option Chunk → ℝ → Prop
  | Option.none, t => (∀ k c a, act k c a → a < p.threshold) ∧ t = p.F * Real.exp (-p.f * p.threshold) ∧ st'.activation = st.activation
  | some c, t => ∃ k a, act k c a ∧ p.threshold ≤ a ∧ (∀ j d b, act j d b → b ≤ a ∧ (j < k → b < a)) ∧ st'.activation = some a ∧
      (cond c → t = p.F * Real.exp (-p.f * a))

/-- The whole of C22. -/
def C22_full : Prop := ∀ (P : Py) (p : RParams) (st st' : RBuf) (now : ℚ) (other : Chunk) (bv : BV) (bufs : List (String × Option Chunk))
    (want : Option Bool) (draws : ℕ → ℝ) (res : Option Chunk) (t : ℝ), P.H.CollisionFree → p.subsymbolic = true →
    MemReach P.H false st.dm → (∀ d, some d ∈ st.recent → Plain d) → GoodSources p bufs → 0 ≤ p.noise →
    st.retrieve P p now other bv bufs want draws = (st', .ok (res, t)) →
    ∃ reg' req, resolveChunk P bv false st.reg other = (reg', .ok req) ∧
      SubOutcome p (HasActivation P.H p req now st.finst st.recent want bufs draws st.dm) st st' (fun _ => True) res t

theorem hasActivation_lt {H : PyHash} {p : RParams} {req : Chunk} {now : ℚ} {finst : ℕ} {recent : List (Option Chunk)} {want : Option Bool}
    {bufs : List (String × Option Chunk)} {draws : ℕ → ℝ} {m : DecMem} {k : ℕ} {c : Chunk} {a : ℝ}
    (h : HasActivation H p req now finst recent want bufs draws m k c a) : k < m.data.length := by
  obtain ⟨l, _, _, h1, _⟩ := h
  exact (List.getElem?_eq_some_iff.mp h1).1

/-- C22 for chunks with at least one slot (only their latency depends on it): the chunk returned is the first of those with
maximal activation, which is at least the threshold, and the latency is that of its activation; on failure no candidate
reaches the threshold. With C24, C25 (base level), C27 (spreading) and C07 (partial matching). -/
theorem C22_partial (P : Py) (p : RParams) (st st' : RBuf) (now : ℚ) (other : Chunk) (bv : BV) (bufs : List (String × Option Chunk))
    (want : Option Bool) (draws : ℕ → ℝ) (res : Option Chunk) (t : ℝ) (cf : P.H.CollisionFree) (hsub : p.subsymbolic = true)
    (hm : MemReach P.H false st.dm) (hrec : ∀ d, some d ∈ st.recent → Plain d) (hb : GoodSources p bufs) (hn : 0 ≤ p.noise)
    (h : st.retrieve P p now other bv bufs want draws = (st', .ok (res, t))) :
    ∃ reg' req, resolveChunk P bv false st.reg other = (reg', .ok req) ∧ st'.dm.data = st.dm.data ∧
      SubOutcome p (HasActivation P.H p req now st.finst st.recent want bufs draws st.dm) st st' (fun c => c.slots ≠ []) res t := by
  have hcount := counted_reach cf hm
  have hlat : ∀ a, retrievalLatency a p.F p.f = p.F * Real.exp (-p.f * a) := by
    intro a; simp only [retrievalLatency]; congr 2; ring
  simp only [RBuf.retrieve, hsub, if_true] at h
  split at h
  · simp at h
  · next reg' req hreq =>
    refine ⟨reg', req, hreq, ?_⟩
    split at h
    · simp at h
    · next m' best hloop =>
      obtain ⟨h1, _, h2⟩ := subLoop_spec cf hb hn (fun q hq => hcount.plain q.1 (List.mem_map_of_mem (f := Prod.fst) hq)) hrec
        st.dm.data [] st.dm m' Option.none best rfl hcount rfl rfl (by intro j d b hj; simp at hj) hloop
      cases best with
      | none =>
        simp only [Prod.mk.injEq, Except.ok.injEq] at h
        obtain ⟨rfl, rfl, rfl⟩ := h
        refine ⟨h1, ?_, hlat _, rfl⟩
        intro k c a hh
        exact h2 k c a (hasActivation_lt hh) hh
      | some x =>
        obtain ⟨c, a⟩ := x
        simp only [Prod.mk.injEq, Except.ok.injEq] at h
        obtain ⟨rfl, rfl, rfl⟩ := h
        obtain ⟨ht, i, hi, hact, hall⟩ := h2
        refine ⟨h1, i, a, hact, ht, fun j d b hh => hall j d b (hasActivation_lt hh) hh, rfl, ?_⟩
        intro hc
        have : c.slots.isEmpty = false := by simpa using hc
        simp only [this, Bool.false_eq_true, if_false, hlat]

/-- C22: a retrieval does not raise if the request can be resolved, the noise parameter is not negative, source buffers exist,
and base levels do not raise (see `C25_partial` and `noRaise`). -/
theorem C22_success (P : Py) (p : RParams) (st : RBuf) (now : ℚ) (other : Chunk) (bv : BV) (bufs : List (String × Option Chunk))
    (want : Option Bool) (draws : ℕ → ℝ) (cf : P.H.CollisionFree) (hsub : p.subsymbolic = true)
    (hm : MemReach P.H false st.dm) (hb : GoodSources p bufs) (hn : 0 ≤ p.noise)
    (hbl : ∀ q ∈ st.dm.data, ∀ e, baselevel now q.2 p.bll p.decay ((cdLook P.H q.1 st.dm.act).map (fun x : ℚ => (x : ℝ))) p.optimized = .error e →
      e = .unboundLocal)
    (hreq : ∃ reg' req, resolveChunk P bv false st.reg other = (reg', .ok req)) :
    ∃ st' res t, st.retrieve P p now other bv bufs want draws = (st', .ok (res, t)) := by
  obtain ⟨reg', req, hreq⟩ := hreq
  have hcount := counted_reach cf hm
  have hcand : ∀ (m : DecMem) (q : Chunk × List ℚ) draw, q ∈ st.dm.data → Counted P.H m → m.data = st.dm.data → m.act = st.dm.act →
      ∃ m' o, candidateActivation P.H p req now bufs draw m q.1 q.2 = (m', .ok o) ∧ Counted P.H m' ∧ m'.data = st.dm.data ∧ m'.act = st.dm.act := by
    intro m q draw hq hcm hdm ham
    simp only [candidateActivation, ham]
    split
    · exact ⟨_, _, rfl, hcm, hdm, ham⟩
    · split
      · exact ⟨_, _, rfl, hcm, hdm, ham⟩
      · next e hne he => exact absurd (hbl q hq e he) (by rintro rfl; exact hne rfl)
      · obtain ⟨m1, hsp, hc1, hd1, ha1⟩ := spreading_spec cf p.S p.restricted p.only bufs hb.plain
          (hcount.plain q.1 (List.mem_map_of_mem (f := Prod.fst) hq)) p.weights m 0 hcm hb.known
        rw [hsp]
        simp only [instNoise, if_neg (not_lt.mpr hn)]
        split
        · next e he => split at he <;> cases he
        · exact ⟨_, _, rfl, hc1, hd1.trans hdm, ha1.trans ham⟩
  have hloop : ∀ (l : List (Chunk × List ℚ)) k (m : DecMem) best, (∀ q ∈ l, q ∈ st.dm.data) → Counted P.H m → m.data = st.dm.data → m.act = st.dm.act →
      ∃ m' best', subLoop P.H p req now (recencySkips P.H st.finst st.recent want) bufs draws k l m best = (m', best', Option.none) := by
    intro l
    induction l with
    | nil => intro k m best _ _ _ _; exact ⟨m, best, rfl⟩
    | cons q r ih =>
      intro k m best hl hcm hdm ham
      obtain ⟨c, l'⟩ := q
      simp only [subLoop]
      split
      · exact ih _ _ _ (fun q hq => hl q (by simp [hq])) hcm hdm ham
      · obtain ⟨m', o, ho, h1, h2, h3⟩ := hcand m (c, l') (draws k) (hl _ (by simp)) hcm hdm ham
        simp only at ho
        rw [ho]
        cases o with
        | none => exact ih _ _ _ (fun q hq => hl q (by simp [hq])) h1 h2 h3
        | some a => exact ih _ _ _ (fun q hq => hl q (by simp [hq])) h1 h2 h3
  obtain ⟨m', best', hl⟩ := hloop st.dm.data 0 st.dm Option.none (fun q hq => hq) hcount rfl rfl
  exact ⟨_, _, _, by simp only [RBuf.retrieve, hreq, hsub, if_true, hl]; rfl⟩

/-- Base levels that do not raise: traces up to now, at most one of the current instant, plain learning. -/
theorem noRaise (now : ℚ) (d : ℝ) (times : List ℚ) (act : Option ℝ) (hd : 0 < d) (hle : ∀ t ∈ times, t ≤ now) (hc : times.count now ≤ 1) (e : PyErr)
    (h : baselevel now times true d act false = .error e) : e = .unboundLocal := by
  have h0 := C25_partial now d times hd hle hc
  have hsplit : baselevel now times true d Option.none false = .error .unboundLocal ∨ ∃ b, baselevel now times true d Option.none false = .ok b := by
    by_cases hf : times.filter (fun t => decide (t ≠ now)) = []
    · exact .inl (h0.1 hf)
    · exact .inr ⟨_, h0.2 hf⟩
  cases act with
  | none =>
    rcases hsplit with hh | ⟨b, hh⟩ <;> rw [hh] at h <;> cases h
    rfl
  | some a =>
    simp only [baselevel, if_true, Bool.false_eq_true, if_false] at h hsplit
    split at h
    · next e' he =>
      rw [he] at hsplit
      simp only [reduceCtorEq, exists_false, or_false] at hsplit
      cases h; cases hsplit; rfl
    · next b hb => cases b <;> cases h

/-- C22 without partial matching: the chunk returned fits the description. -/
theorem C22_matches (P : Py) (p : RParams) (st st' : RBuf) (now : ℚ) (other : Chunk) (bv : BV) (bufs : List (String × Option Chunk))
    (want : Option Bool) (draws : ℕ → ℝ) (c : Chunk) (t : ℝ) (cf : P.H.CollisionFree) (hsub : p.subsymbolic = true)
    (hpm : p.partialMatching = false) (hreach : Reach P.toPyEnv st.reg) (ho : Named other) (hg : GoodRequest bv other)
    (hd : ∀ q ∈ st.dm.data, DataChunk q.1 ∧ EmptyCovered bv other q.1)
    (hm : MemReach P.H false st.dm) (hrec : ∀ d, some d ∈ st.recent → Plain d) (hb : GoodSources p bufs) (hn : 0 ≤ p.noise)
    (h : st.retrieve P p now other bv bufs want draws = (st', .ok (some c, t))) :
    Asked bv other c ∧ PassesRecency st.finst st.recent want c ∧ ∃ l, (c, l) ∈ st.dm.data := by
  obtain ⟨reg', req, hreq, _, k, a, ⟨l, pm, b, h1, h2, h3, _⟩, _⟩ :=
    C22_partial P p st st' now other bv bufs want draws _ t cf hsub hm hrec hb hn h
  have hmem : (c, l) ∈ st.dm.data := List.mem_of_getElem? h1
  have hr := (resolveChunk_spec cf hreach ho hreq).1
  refine ⟨?_, h2, l, hmem⟩
  rcases h3 with ⟨_, hle⟩ | ⟨hp, _⟩
  · exact (le_asked cf hr hg (hd _ hmem).1 (hd _ hmem).2).mp hle
  · rw [hpm] at hp; cases hp

/-! ## C23 -/

theorem subLoop_from {H : PyHash} {p : RParams} {req : Chunk} {now : ℚ} {skip : Chunk → Bool} {bufs : List (String × Option Chunk)} {draws : ℕ → ℝ} :
    ∀ {l : List (Chunk × List ℚ)} {k : ℕ} {m m' : DecMem} {best best' : Best} {e : Option PyErr},
      subLoop H p req now skip bufs draws k l m best = (m', best', e) →
      best' = best ∨ ∃ c a tr, best' = some (c, a) ∧ (c, tr) ∈ l ∧ skip c = false
  | [], k, m, m', best, best', e, h => by simp only [subLoop, Prod.mk.injEq] at h; exact .inl h.2.1.symm
  | (c, l) :: r, k, m, m', best, best', e, h => by
    have lift : ∀ {best0 : Best}, (best0 = best ∨ ∃ a, best0 = some (c, a) ∧ skip c = false) →
        (best' = best0 ∨ ∃ c a tr, best' = some (c, a) ∧ (c, tr) ∈ r ∧ skip c = false) →
        best' = best ∨ ∃ d a tr, best' = some (d, a) ∧ (d, tr) ∈ (c, l) :: r ∧ skip d = false := by
      rintro best0 h0 (rfl | ⟨d, a, tr, h1, h2, h3⟩)
      · rcases h0 with rfl | ⟨a, h1, h2⟩
        · exact .inl rfl
        · exact .inr ⟨c, a, l, h1, by simp, h2⟩
      · exact .inr ⟨d, a, tr, h1, by simp [h2], h3⟩
    simp only [subLoop] at h
    split at h
    · exact lift (.inl rfl) (subLoop_from h)
    · next hs =>
      split at h
      · simp only [Prod.mk.injEq] at h; exact .inl h.2.1.symm
      · exact lift (.inl rfl) (subLoop_from h)
      · next a _ =>
        refine lift (best0 := better p.threshold best c a) ?_ (subLoop_from h)
        have hs : skip c = false := by simpa using hs
        unfold better
        split <;> split
        · exact .inr ⟨a, rfl, hs⟩
        · exact .inl rfl
        · exact .inr ⟨a, rfl, hs⟩
        · exact .inl rfl

/-- What a retrieval does to the finsts, whatever its parameters. -/
theorem retrieve_recent {P : Py} {p : RParams} {st st' : RBuf} {now : ℚ} {other : Chunk} {bv : BV} {bufs : List (String × Option Chunk)}
    {want : Option Bool} {draws : ℕ → ℝ} {r : Except PyErr (Option Chunk × ℝ)}
    (h : st.retrieve P p now other bv bufs want draws = (st', r)) :
    st'.finst = st.finst ∧ (∀ e, r = .error e → st'.recent = st.recent) ∧
    ∀ res t, r = .ok (res, t) → st'.recent = remember st.finst st.recent res ∧
      ∀ c, res = some c → recencySkips P.H st.finst st.recent want c = false ∧ ∃ l, (c, l) ∈ st.dm.data := by
  simp only [RBuf.retrieve] at h
  split at h
  · simp only [Prod.mk.injEq] at h
    obtain ⟨rfl, rfl⟩ := h
    exact ⟨rfl, fun _ _ => rfl, by simp⟩
  · split at h
    · split at h
      · simp only [Prod.mk.injEq] at h
        obtain ⟨rfl, rfl⟩ := h
        exact ⟨rfl, fun _ _ => rfl, by simp⟩
      · next m' best hl =>
        simp only [Prod.mk.injEq] at h
        obtain ⟨rfl, rfl⟩ := h
        refine ⟨rfl, by simp, ?_⟩
        intro res t hr
        simp only [Except.ok.injEq, Prod.mk.injEq] at hr
        obtain ⟨rfl, _⟩ := hr
        refine ⟨rfl, ?_⟩
        intro c hc
        rcases subLoop_from hl with rfl | ⟨d, a, tr, rfl, h2, h3⟩
        · cases hc
        · cases hc; exact ⟨h3, tr, h2⟩
    · split at h
      · simp only [Prod.mk.injEq] at h
        obtain ⟨rfl, rfl⟩ := h
        exact ⟨rfl, fun _ _ => rfl, by simp⟩
      · next res hl =>
        simp only [Prod.mk.injEq] at h
        obtain ⟨rfl, rfl⟩ := h
        refine ⟨rfl, by simp, ?_⟩
        intro res' t hr
        simp only [Except.ok.injEq, Prod.mk.injEq] at hr
        obtain ⟨rfl, _⟩ := hr
        refine ⟨rfl, ?_⟩
        intro c hc
        rcases symLoop_ok hl with ⟨d, pre, l, post, h1, h2, h3, _⟩ | ⟨h1, _⟩
        · rw [h1] at hc; cases hc
          exact ⟨h3.1, l, by rw [h2]; simp⟩
        · rw [h1] at hc; cases hc

/-- C23: after any history of retrievals, the recently retrieved items are the results of the last `n` of them (a failed one
counts as well). -/
theorem C23_window (P : Py) (n : ℕ) (hn : 0 < n) (st : RBuf) (rs : List (Option Chunk)) (h : RHist P n st rs) :
    st.finst = n ∧ st.recent = rs.drop (rs.length - n) := by
  induction h with
  | new h1 h2 => exact ⟨h1, by simpa using h2⟩
  | other _ h1 h2 ih => exact ⟨h1.trans ih.1, h2.trans ih.2⟩
  | fails _ h ih =>
    obtain ⟨h1, h2, _⟩ := retrieve_recent h
    exact ⟨h1.trans ih.1, (h2 _ rfl).trans ih.2⟩
  | ok _ h ih =>
    obtain ⟨h1, _, h3⟩ := retrieve_recent h
    obtain ⟨h3, _⟩ := h3 _ _ rfl
    refine ⟨h1.trans ih.1, ?_⟩
    rw [h3, ih.1, ih.2]
    have hn' : n ≠ 0 := hn.ne'
    simp only [remember, hn', if_false, List.length_append, List.length_drop, List.length_cons, List.length_nil]
    next rs _ _ _ _ _ _ _ res _ _ _ =>
    split
    · next hlt =>
      rw [List.drop_append_of_le_length (by simp; omega), List.drop_drop, List.drop_append_of_le_length (by omega)]
      congr 2; omega
    · next hlt =>
      rw [List.drop_append_of_le_length (by omega)]
      congr 2; omega

/-- C23: a request for something not recently retrieved never returns a chunk that one of the last `n` retrievals returned;
a request for something recently retrieved returns only such a chunk. -/
theorem C23_recently (P : Py) (n : ℕ) (hn : 0 < n) (st st' : RBuf) (rs : List (Option Chunk)) (h : RHist P n st rs) (p : RParams) (now : ℚ)
    (other : Chunk) (bv : BV) (bufs : List (String × Option Chunk)) (want : Option Bool) (draws : ℕ → ℝ) (c : Chunk) (t : ℝ)
    (cf : P.H.CollisionFree) (hd : ∀ q ∈ st.dm.data, Plain q.1) (hrs : ∀ d, some d ∈ rs → Plain d)
    (hr : st.retrieve P p now other bv bufs want draws = (st', .ok (some c, t))) :
    (want = some false → ¬ ∃ d, some d ∈ rs.drop (rs.length - n) ∧ chunkContent d = chunkContent c) ∧
    (want = some true → ∃ d, some d ∈ rs.drop (rs.length - n) ∧ chunkContent d = chunkContent c) := by
  obtain ⟨w1, w2⟩ := C23_window P n hn st rs h
  obtain ⟨hs, l, hl⟩ := ((retrieve_recent hr).2.2 _ _ rfl).2 c rfl
  have hp := (recencySkips_iff cf (hd _ hl) (by rw [w2]; intro d hd'; exact hrs d (List.mem_of_mem_drop hd'))).mp hs
  rw [w1, w2] at hp
  exact hp hn.ne'

/-- After `n` failures nothing is remembered: failed retrievals push chunks out. -/
theorem C23_failures (P : Py) (n : ℕ) (hn : 0 < n) (st : RBuf) (rs : List (Option Chunk))
    (h : RHist P n st (rs ++ List.replicate n Option.none)) (c : Chunk) : PassesRecency st.finst st.recent (some false) c := by
  obtain ⟨_, w2⟩ := C23_window P n hn st _ h
  intro _
  refine ⟨fun _ => ?_, by simp⟩
  rw [w2]
  rintro ⟨d, hd, _⟩
  rw [List.length_append, List.length_replicate, Nat.add_sub_cancel, List.drop_left] at hd
  simp at hd

/-! ## Concrete cases -/

/-- A chunk with one slot. -/
def exFact (s : String) : Chunk := ⟨"t", [("a", .vv ⟨.str s, Option.none, [], []⟩)]⟩

theorem exFact_ment {s : String} {n : String} {x : VarVal} (h : MentionsSlot (exFact s) n x) : n = "a" ∧ x = ⟨.str s, Option.none, [], []⟩ := by
  obtain ⟨h, _⟩ := h; simpa [exFact] using h

theorem exFact_dem {s : String} {v : Val} (h : Demands BV.init ⟨.str s, Option.none, [], []⟩ v) : v = .str s := by
  rcases h with _ | ⟨h, _, _⟩
  · rfl
  · cases h

theorem exFact_good {s : String} (h1 : s ≠ "") (h2 : s ≠ ">") (h3 : s ≠ "<") : GoodRequest BV.init (exFact s) := by
  intro n x h
  obtain ⟨_, rfl⟩ := exFact_ment h
  refine ⟨⟨plainVal_str s, by simp, by simp [BV.get, BV.init, alook]⟩, ⟨?_, ?_, by simp⟩, ?_, ?_⟩
  · intro v hv; rw [exFact_dem hv]; simpa [Blank] using h1
  · intro v hv; rw [exFact_dem hv]; simp [h2, h3]
  · rintro (⟨y, h, _⟩ | ⟨y, h, _⟩ | ⟨h, _⟩ | ⟨v, w, h1, h2, h3⟩)
    · cases h
    · cases h
    · cases h
    · rw [exFact_dem h1, exFact_dem h2] at h3; exact h3 rfl
  · intro v hv; rw [exFact_dem hv]; simp

theorem exFact_asked {s u : String} (h1 : s ≠ "") : Asked BV.init (exFact s) (exFact u) ↔ s = u := by
  have hm : MentionsSlot (exFact s) "a" ⟨.str s, Option.none, [], []⟩ := ⟨by simp [exFact], .inl ⟨by simp, by simp⟩⟩
  have hs : SlotHas (exFact u) "a" (.str u) := SlotHas.val (x := ⟨.str u, Option.none, [], []⟩) (by simp [exFact])
  constructor
  · intro h
    exact (h "a" _ _ hm hs).1 (.str s) (.literal (by simpa [Blank] using h1))
  · rintro rfl n x w hx hw
    obtain ⟨rfl, rfl⟩ := exFact_ment hx
    refine ⟨?_, ?_⟩
    · intro v hv
      rw [exFact_dem hv]
      rw [slotHas_iff (by simp [Named, exFact])] at hw
      subst hw; simp [matchingVal, exFact, alook, SameVal]
    · rintro v (h | ⟨h, _⟩)
      · simp at h
      · simp at h

theorem exFact_data (s : String) : DataChunk (exFact s) := by
  refine ⟨?_, by simp [Named, exFact], ?_⟩
  · simp [Plain, exFact, PlainSlots, PlainSlot, PlainVal]
  · intro n x h; simp [exFact] at h; rw [h.2]; simp

/-- Parameters without subsymbolic computation. -/
noncomputable def exParams : RParams := ⟨false, false, 1, true, 1 / 2, false, [], 0, false, false, 0, 0, 1, 1, 1 / 20, []⟩

/-- A buffer whose memory holds one chunk, stored at time 0. -/
def exBuf (reg : Reg) (recent : List (Option Chunk)) : RBuf := ⟨reg, ⟨[(exFact "1", [0])], [], [], []⟩, 1, recent, Option.none⟩

theorem exBuf_retrieve {H : PyHash} (cf : H.CollisionFree) (s : String) (h1 : s ≠ "") (h2 : s ≠ ">") (h3 : s ≠ "<") (h4 : s ≠ "None") (reg : Reg)
    (hreach : Reach (exPy H).toPyEnv reg) (recent : List (Option Chunk)) (want : Option Bool) (hrec : ∀ d, some d ∈ recent → Plain d) :
    ∃ reg' res t, (exBuf reg recent).retrieve (exPy H) exParams 1 (exFact s) BV.init [] want (fun _ => 0) =
        (exBuf reg' (remember 1 recent res), .ok (res, t)) ∧ Reach (exPy H).toPyEnv reg' ∧
      (res = some (exFact "1") ∨ res = Option.none) ∧ (res = some (exFact "1") ↔ s = "1" ∧ PassesRecency 1 recent want (exFact "1")) := by
  obtain ⟨st', res, t, h⟩ := C21_success (exPy H) exParams (exBuf reg recent) 1 (exFact s) BV.init [] want (fun _ => 0) cf rfl hreach
    (by simp [Named, exFact]) (exFact_good h1 h2 h3) (.inr ⟨by simp [exFact], by simp [exFact], by simp [exFact], rfl, by
      intro n x hx; rw [(exFact_ment hx).1]; rfl⟩) (by simp [exBuf])
  have hout := C21_retrieval (exPy H) exParams (exBuf reg recent) st' 1 (exFact s) BV.init [] want (fun _ => 0) res t cf rfl hreach
    (by simp [Named, exFact]) (exFact_good h1 h2 h3) (by
      intro q hq
      simp only [exBuf, List.mem_singleton] at hq
      subst hq
      refine ⟨exFact_data _, ?_⟩
      intro n x hx hd
      obtain ⟨_, rfl⟩ := exFact_ment hx
      have := exFact_dem hd
      exact absurd (Val.str.inj this).symm h4) hrec h
  have hstruct : ∃ reg', st' = exBuf reg' (remember 1 recent res) ∧ Reach (exPy H).toPyEnv reg' := by
    have h' := h
    simp only [RBuf.retrieve] at h'
    split at h'
    · simp at h'
    · next reg' req hreq =>
      simp only [exParams, Bool.false_eq_true, if_false] at h'
      split at h'
      · simp at h'
      · simp only [Prod.mk.injEq, Except.ok.injEq] at h'
        obtain ⟨h5, rfl, _⟩ := h'
        exact ⟨reg', h5.symm, (resolveChunk_spec (P := exPy H) cf hreach (by simp [Named, exFact]) hreq).2⟩
  obtain ⟨reg', rfl, hreach'⟩ := hstruct
  have hel : ∀ l, Eligible BV.init (exFact s) 1 (exBuf reg recent) want (exFact "1", l) ↔
      s = "1" ∧ StoredBefore 1 l ∧ PassesRecency 1 recent want (exFact "1") := by
    intro l; simp only [Eligible, exFact_asked h1]; rfl
  have hst : StoredBefore 1 [0] := ⟨0, [], rfl, by norm_num⟩
  refine ⟨reg', res, t, h, hreach', ?_⟩
  cases res with
  | none =>
    refine ⟨.inr rfl, by simp, ?_⟩
    intro hh
    exact absurd ((hel [0]).mpr ⟨hh.1, hst, hh.2⟩) (hout.2.mp rfl _ (by simp [exBuf]))
  | some c =>
    obtain ⟨pre, l, post, e1, e2, _⟩ := hout.1 c rfl
    have hc : (c, l) ∈ [(exFact "1", [(0 : ℚ)])] := by
      have : (c, l) ∈ (exBuf reg recent).dm.data := by rw [e1]; simp
      exact this
    simp only [List.mem_singleton, Prod.mk.injEq] at hc
    obtain ⟨rfl, rfl⟩ := hc
    exact ⟨.inl rfl, fun _ => let ⟨a, _, b⟩ := (hel _).mp e2; ⟨a, b⟩, fun _ => rfl⟩

/-- The reading of C23 according to which failed retrievals do not count: the last `n` chunks that were retrieved are never
returned. -/
def C23_strict : Prop := ∀ (P : Py) (n : ℕ), 0 < n → ∀ (st st' : RBuf) (rs : List (Option Chunk)), RHist P n st rs →
  ∀ (p : RParams) (now : ℚ) (other : Chunk) (bv : BV) (bufs : List (String × Option Chunk)) (draws : ℕ → ℝ) (c : Chunk) (t : ℝ),
    P.H.CollisionFree → (∀ q ∈ st.dm.data, Plain q.1) → (∀ d, some d ∈ rs → Plain d) →
    st.retrieve P p now other bv bufs (some false) draws = (st', .ok (some c, t)) →
    ∀ d, d ∈ (rs.filterMap id).drop ((rs.filterMap id).length - n) → chunkContent d ≠ chunkContent c

/-- That reading is false: after a failed retrieval the chunk retrieved before is returned again. -/
theorem C23_refuted_strict : ¬ C23_strict := by
  intro hall
  obtain ⟨H, cf⟩ := exists_collisionFree
  obtain ⟨r1, res1, t1, e1, g1, _, i1⟩ := exBuf_retrieve cf "1" (by decide) (by decide) (by decide) (by decide) [] .empty [] Option.none (by simp)
  have hres1 : res1 = some (exFact "1") := i1.mpr ⟨rfl, fun _ => ⟨by simp, by simp⟩⟩
  subst hres1
  obtain ⟨r2, res2, t2, e2, g2, o2, i2⟩ := exBuf_retrieve cf "2" (by decide) (by decide) (by decide) (by decide) r1 g1
    (remember 1 [] (some (exFact "1"))) Option.none (by simp only [remember]; simp; exact (exFact_data _).plain)
  have hres2 : res2 = Option.none := by
    rcases o2 with h | h
    · exact absurd (i2.mp h).1 (by decide)
    · exact h
  subst hres2
  have hr2 : remember 1 (remember 1 [] (some (exFact "1"))) Option.none = [Option.none] := by simp [remember]
  rw [hr2] at e2
  obtain ⟨r3, res3, t3, e3, _, _, i3⟩ := exBuf_retrieve cf "1" (by decide) (by decide) (by decide) (by decide) r2 g2 [Option.none] (some false) (by simp)
  have hres3 : res3 = some (exFact "1") := i3.mpr ⟨rfl, fun _ => ⟨fun _ => by rintro ⟨d, hd, _⟩; simp at hd, by simp⟩⟩
  subst hres3
  have hist : RHist (exPy H) 1 (exBuf r2 [Option.none]) ([] ++ [some (exFact "1")] ++ [Option.none]) :=
    .ok (.ok (.new rfl rfl) e1) e2
  exact hall (exPy H) 1 (by decide) _ _ _ hist exParams 1 (exFact "1") BV.init [] (fun _ => 0) (exFact "1") t3 cf
    (by simp [exBuf]; exact (exFact_data _).plain) (by simp; exact (exFact_data _).plain) e3 (exFact "1") (by simp) rfl

/-- The latency of a chunk without slots is that of the threshold: C22 is false. -/
theorem C22_refuted : ¬ C22_full := by
  intro hall
  obtain ⟨H, cf⟩ := exists_collisionFree
  let c : Chunk := ⟨"t", []⟩
  let m : DecMem := (DecMem.empty.step H (.add (.chunk c) (.one 0))).1
  have hm : MemReach H false m := .op .new (by simp [PlainOp, Plain, c, PlainSlots])
  have hdata : m.data = [(c, [round4 0])] := by
    simp [m, DecMem.step, DecMem.add, addOne_data, DecMem.empty, cdLook, cdSet, TimeArg.traces]
  have hact : m.act = [] := by
    simp only [m, DecMem.step, DecMem.add]; rw [addOne_act]; rfl
  let p : RParams := ⟨true, false, 1, false, 1 / 2, false, [], 0, false, false, 0, -1, 1, 1, 1 / 20, []⟩
  let st : RBuf := ⟨[], m, 0, [], Option.none⟩
  obtain ⟨reg', req, hreq⟩ := resolveChunk_success (P := exPy H) (bv := BV.init) (ni := false) (reg := []) (other := c) cf .empty (by simp [Named, c])
    (by rintro n x ⟨h, _⟩; simp [c] at h) (.inr ⟨by decide, by decide, by decide, rfl, by rintro n x ⟨h, _⟩; simp [c] at h⟩)
  have hrq := (resolveChunk_spec (P := exPy H) cf .empty (by simp [Named, c]) hreq).1
  have hle : (req.le H BV.init c).1 = true := by
    rw [le_asked cf hrq (by rintro n x ⟨h, _⟩; simp [c] at h) ⟨by simp [Plain, c, PlainSlots], by simp [Named, c], by simp [c]⟩
      (by rintro n x ⟨h, _⟩; simp [c] at h)]
    rintro n x w ⟨h, _⟩; simp [c] at h
  have hret : ∃ st', st.retrieve (exPy H) p 1 c BV.init [] Option.none (fun _ => 0) = (st', .ok (some c, retrievalLatency (-1) 1 1)) := by
    have hH : (exPy H).H = H := rfl
    refine ⟨⟨reg', m, 0, [], some 0⟩, ?_⟩
    simp only [RBuf.retrieve, st, hreq, p, if_true, hH, hdata, subLoop, recencySkips, Bool.false_eq_true, if_false, candidateActivation, pmScore, hle,
      baselevel, hact, cdLook, Option.map_none, spreading, instNoise, lt_irrefl, better, retrievalSuccess]
    norm_num [c, remember]
  obtain ⟨st', hret⟩ := hret
  obtain ⟨_, _, _, k, a, ⟨l, pm, b, h1, _, h3, h4, h5⟩, _, _, _, h6⟩ :=
    hall (exPy H) p st st' 1 c BV.init [] Option.none (fun _ => 0) _ _ cf rfl hm (by simp [st]) ⟨by simp [alook], by simp [p]⟩ (by simp [p]) hret
  have hk : k = 0 := by
    have := (List.getElem?_eq_some_iff.mp h1).1
    simp only [st, hdata, List.length_singleton] at this; omega
  have hb : b = 0 := by
    simp [baselevel, p, st, hact, cdLook] at h4; exact h4.symm
  have hpm : pm = 0 := by
    rcases h3 with _ | ⟨hp, _⟩
    · rfl
    · simp [p] at hp
  have ha : a = 0 := by
    rw [h5, hb, hpm]; simp [p]
  have := h6 trivial
  rw [ha] at this
  simp [retrievalLatency, p] at this

end Verif.Props

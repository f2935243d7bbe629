import Verif.Lemmas.UpcInst

/-! # Two partitioned convolvers with equivalent delay lines and filters behave alike -/

namespace Neo

open Finset

/-- Equal faults, or equal visible results and related states. -/
def ResRel {γ σ₁ σ₂ : Type} (R : σ₁ → σ₂ → Prop) : Res (γ × σ₁) → Res (γ × σ₂) → Prop
  | .ok (a, s₁), .ok (b, s₂) => a = b ∧ R s₁ s₂
  | .error e, .error e' => e = e'
  | _, _ => False

theorem resRel_bind_same {α γ σ₁ σ₂ : Type} {R : σ₁ → σ₂ → Prop} (m : Res α)
    {k₁ : α → Res (γ × σ₁)} {k₂ : α → Res (γ × σ₂)} (h : ∀ a, ResRel R (k₁ a) (k₂ a)) :
    ResRel R (m >>= k₁) (m >>= k₂) := by
  cases m with
  | ok a => exact h a
  | error e => exact rfl

theorem resRel_bind {α γ σ₁ σ₂ τ₁ τ₂ : Type} {R : σ₁ → σ₂ → Prop} {Q : τ₁ → τ₂ → Prop}
    {m₁ : Res (α × τ₁)} {m₂ : Res (α × τ₂)} {k₁ : α × τ₁ → Res (γ × σ₁)}
    {k₂ : α × τ₂ → Res (γ × σ₂)} (hm : ResRel Q m₁ m₂)
    (h : ∀ a t₁ t₂, Q t₁ t₂ → ResRel R (k₁ (a, t₁)) (k₂ (a, t₂))) :
    ResRel R (m₁ >>= k₁) (m₂ >>= k₂) := by
  rcases m₁ with e | ⟨a, s⟩ <;> rcases m₂ with e' | ⟨b, t⟩
  · exact hm
  · exact hm.elim
  · exact hm.elim
  · obtain ⟨rfl, hq⟩ := hm
    exact h _ _ _ hq

/-- The overlap scheme treats the callback's captured state as opaque. -/
def OverlapParam {Ov R K : Type} (oo : OverlapOps Ov R K) : Prop :=
  ∀ {σ₁ σ₂ : Type} (S : σ₁ → σ₂ → Prop) (o : Ov) (block : List R) (cb₁ : Callback σ₁ K)
    (cb₂ : Callback σ₂ K) (s₁ : σ₁) (s₂ : σ₂), S s₁ s₂ →
    (∀ sp s₁ s₂, S s₁ s₂ → ResRel S (cb₁ sp s₁) (cb₂ sp s₂)) →
    ResRel (fun (p : List R × σ₁) (q : List R × σ₂) => p.1 = q.1 ∧ S p.2 q.2)
      (oo.call o block cb₁ s₁) (oo.call o block cb₂ s₂)

theorem ola_param : OverlapParam olaOps := by
  intro σ₁ σ₂ R o block cb₁ cb₂ s₁ s₂ hR hcb
  simp only [olaOps]
  unfold OverlapAdd.call
  simp only []
  repeat' (apply resRel_bind_same; intro _)
  apply resRel_bind (hcb _ _ _ hR)
  intro sp t₁ t₂ hR
  simp only []
  repeat' (apply resRel_bind_same; intro _)
  exact ⟨rfl, rfl, hR⟩

theorem ols_param : OverlapParam olsOps := by
  intro σ₁ σ₂ R o block cb₁ cb₂ s₁ s₂ hR hcb
  simp only [olsOps]
  unfold OverlapSave.call
  simp only []
  repeat' (apply resRel_bind_same; intro _)
  apply resRel_bind (hcb _ _ _ hR)
  intro sp t₁ t₂ hR
  simp only []
  repeat' (apply resRel_bind_same; intro _)
  exact ⟨rfl, rfl, hR⟩

section
variable {Ov F₁ R₁ P₁ A₁ G₁ F₂ R₂ P₂ A₂ G₂ R K : Type} [Zero K] [Add K] [Mul K]

theorem callback_eval {fo : FdlOps F₁ R₁ K} {po : FilterOps P₁ R₁ A₁ G₁ K} {N C : ℕ}
    {FR : F₁ → (ℕ → ℕ → K) → Prop} {RR : R₁ → (ℕ → K) → Prop} {AR : A₁ → (ℕ → K) → Prop}
    {filt : P₁} {H : ℕ → ℕ → K} (hf : FdlLaw fo N C FR RR) (hp : FilterLaw po N C RR AR filt H)
    (X : ℕ → ℕ → K) (g : ℕ → K) (w : ℕ) (hw : w < N) (s : UpcInner F₁ A₁) (a : ℕ → K)
    (h1 : FR s.fdl X) (h2 : s.indexer = ⟨N, w⟩) (h3 : AR s.accumulator a) :
    ∃ s', Upc.callback fo po filt (vec C g) s = .ok (vec C (fun k => accum (fun i =>
        (if i = w then g k else X i k) * H ((w + N - i) % N) k) 0 0 N), s') ∧
      FR s'.fdl (fun i k => if i = w then g k else X i k) ∧
      s'.indexer = FdlIndex.advance ⟨N, w⟩ ∧ ∃ a', AR s'.accumulator a' := by
  obtain ⟨acc0, e0, hacc0⟩ := hp.accZero _ _ h3
  obtain ⟨fdl1, e1, hfdl1⟩ := hf.insert _ _ g w h1 hw
  unfold Upc.callback FdlIndex.call
  rw [e0, bind_ok, h2]
  simp only []
  have hins : Upc.insert fo (vec C g) w (s.fdl, acc0) = .ok (fdl1, acc0) := by
    unfold Upc.insert
    simp only []
    rw [e1, bind_ok, pure_eq_ok]
  rw [hins, bind_ok]
  obtain ⟨st, est, h⟩ := forN_inv (n := N) (s := (fdl1, acc0))
    (body := fun segment s => Upc.multiply fo po filt segment ((w + N - segment) % N) s)
    (fun n (st : F₁ × A₁) => st.1 = fdl1 ∧ AR st.2
      (fun k => accum (fun i => (if i = w then g k else X i k) * H ((w + N - i) % N) k) 0 0 n))
    ⟨rfl, hacc0⟩ (by
      rintro i hi ⟨f', acc'⟩ ⟨g1, g2⟩
      simp only [] at g1 g2
      subst g1
      obtain ⟨row, er, hr⟩ := hf.row _ _ i hfdl1 hi
      obtain ⟨acc'', em, hm⟩ := hp.mac row _ ((w + N - i) % N) acc' _ hr
        (Nat.mod_lt _ (by omega)) g2
      refine ⟨(f', acc''), ?_, rfl, ?_⟩
      · unfold Upc.multiply
        simp only []
        rw [er, bind_ok, em, bind_ok, pure_eq_ok]
      · simp only [accum, Nat.zero_add]
        exact hm)
  rw [est, bind_ok]
  obtain ⟨f', acc'⟩ := st
  obtain ⟨g1, g2⟩ := h
  simp only [] at g1 g2
  subst g1
  have hout := hp.accOut acc' _ g g2
  simp only [pure_eq_ok, bind_ok]
  rw [hout, bind_ok]
  exact ⟨_, rfl, hfdl1, rfl, _, g2⟩

theorem callback_error {fo : FdlOps F₁ R₁ K} {po : FilterOps P₁ R₁ A₁ G₁ K} {filt : P₁} {sp : List K}
    {s : UpcInner F₁ A₁} {e : Fault} {acc : A₁} (h0 : po.accZero s.accumulator = .ok acc)
    (h : fo.insert s.fdl sp s.indexer.writePos = .error e) :
    Upc.callback fo po filt sp s = .error e := by
  unfold Upc.callback FdlIndex.call Upc.insert
  rw [h0, bind_ok]
  simp only []
  rw [h]
  rfl

/-- Related inner states. -/
def InnerRel (N : ℕ) (FR₁ : F₁ → (ℕ → ℕ → K) → Prop) (FR₂ : F₂ → (ℕ → ℕ → K) → Prop)
    (AR₁ : A₁ → (ℕ → K) → Prop) (AR₂ : A₂ → (ℕ → K) → Prop) (s₁ : UpcInner F₁ A₁)
    (s₂ : UpcInner F₂ A₂) : Prop :=
  s₁.indexer = s₂.indexer ∧ s₁.indexer.numSegments = N ∧ (1 ≤ N → s₁.indexer.writePos < N) ∧
  (∃ X, FR₁ s₁.fdl X ∧ FR₂ s₂.fdl X) ∧ ∃ a b, AR₁ s₁.accumulator a ∧ AR₂ s₂.accumulator b

theorem callback_rel {fo₁ : FdlOps F₁ R₁ K} {fo₂ : FdlOps F₂ R₂ K} {po₁ : FilterOps P₁ R₁ A₁ G₁ K}
    {po₂ : FilterOps P₂ R₂ A₂ G₂ K} {N C : ℕ} {FR₁ : F₁ → (ℕ → ℕ → K) → Prop}
    {FR₂ : F₂ → (ℕ → ℕ → K) → Prop} {RR₁ : R₁ → (ℕ → K) → Prop} {RR₂ : R₂ → (ℕ → K) → Prop}
    {AR₁ : A₁ → (ℕ → K) → Prop} {AR₂ : A₂ → (ℕ → K) → Prop} {p₁ : P₁} {p₂ : P₂} {H : ℕ → ℕ → K}
    (hf₁ : FdlLaw fo₁ N C FR₁ RR₁) (hf₂ : FdlLaw fo₂ N C FR₂ RR₂)
    (hb₁ : FdlBad fo₁ N C FR₁) (hb₂ : FdlBad fo₂ N C FR₂)
    (hp₁ : FilterLaw po₁ N C RR₁ AR₁ p₁ H) (hp₂ : FilterLaw po₂ N C RR₂ AR₂ p₂ H)
    (sp : List K) (s₁ : UpcInner F₁ A₁) (s₂ : UpcInner F₂ A₂)
    (h : InnerRel N FR₁ FR₂ AR₁ AR₂ s₁ s₂) :
    ResRel (InnerRel N FR₁ FR₂ AR₁ AR₂) (Upc.callback fo₁ po₁ p₁ sp s₁)
      (Upc.callback fo₂ po₂ p₂ sp s₂) := by
  obtain ⟨hi, hn, hw, ⟨X, hx₁, hx₂⟩, a, b, ha, hb⟩ := h
  obtain ⟨acc₁, e₁, k₁⟩ := hp₁.accZero _ _ ha
  obtain ⟨acc₂, e₂, k₂⟩ := hp₂.accZero _ _ hb
  rcases Nat.eq_zero_or_pos N with hN | hN
  · rw [callback_error e₁ (hb₁.empty hN _ _ _ _ hx₁), callback_error e₂ (hb₂.empty hN _ _ _ _ hx₂)]
    exact rfl
  have hw' := hw hN
  by_cases hl : sp.length = C
  · obtain ⟨g, rfl⟩ : ∃ g, sp = vec C g := ⟨_, by rw [← hl]; exact eq_vec_getD sp 0⟩
    have hi₁ : s₁.indexer = ⟨N, s₁.indexer.writePos⟩ := by rw [← hn]
    obtain ⟨t₁, c₁, q₁, i₁, u₁⟩ := callback_eval hf₁ hp₁ X g _ hw' s₁ a hx₁ hi₁ ha
    obtain ⟨t₂, c₂, q₂, i₂, u₂⟩ := callback_eval hf₂ hp₂ X g _ hw' s₂ b hx₂ (hi ▸ hi₁) hb
    rw [c₁, c₂]
    obtain ⟨a', u₁⟩ := u₁
    obtain ⟨b', u₂⟩ := u₂
    refine ⟨rfl, by rw [i₁, i₂], ?_, ?_, ⟨_, q₁, q₂⟩, a', b', u₁, u₂⟩
    · rw [i₁]
      simp only [FdlIndex.advance, FdlIndex.reset]
      split_ifs <;> rfl
    · intro _
      rw [i₁]
      simp only [FdlIndex.advance, FdlIndex.reset]
      split_ifs with c
      · exact hN
      · simp only []
        omega
  · rw [callback_error e₁ (hb₁.length _ _ _ _ hx₁ hl hw'),
      callback_error e₂ (hb₂.length _ _ _ _ hx₂ hl (hi ▸ hw'))]
    exact rfl

/-- Related convolvers. -/
def UpcRel (N : ℕ) (FR₁ : F₁ → (ℕ → ℕ → K) → Prop) (FR₂ : F₂ → (ℕ → ℕ → K) → Prop)
    (AR₁ : A₁ → (ℕ → K) → Prop) (AR₂ : A₂ → (ℕ → K) → Prop) (p₁ : P₁) (p₂ : P₂)
    (u₁ : Upc Ov F₁ P₁ A₁) (u₂ : Upc Ov F₂ P₂ A₂) : Prop :=
  u₁.overlap = u₂.overlap ∧ u₁.filter = p₁ ∧ u₂.filter = p₂ ∧
  InnerRel N FR₁ FR₂ AR₁ AR₂ ⟨u₁.fdl, u₁.indexer, u₁.accumulator⟩
    ⟨u₂.fdl, u₂.indexer, u₂.accumulator⟩

theorem call_rel {oo : OverlapOps Ov R K} (ho : OverlapParam oo) {fo₁ : FdlOps F₁ R₁ K}
    {fo₂ : FdlOps F₂ R₂ K} {po₁ : FilterOps P₁ R₁ A₁ G₁ K}
    {po₂ : FilterOps P₂ R₂ A₂ G₂ K} {N C : ℕ} {FR₁ : F₁ → (ℕ → ℕ → K) → Prop}
    {FR₂ : F₂ → (ℕ → ℕ → K) → Prop} {RR₁ : R₁ → (ℕ → K) → Prop} {RR₂ : R₂ → (ℕ → K) → Prop}
    {AR₁ : A₁ → (ℕ → K) → Prop} {AR₂ : A₂ → (ℕ → K) → Prop} {p₁ : P₁} {p₂ : P₂} {H : ℕ → ℕ → K}
    (hf₁ : FdlLaw fo₁ N C FR₁ RR₁) (hf₂ : FdlLaw fo₂ N C FR₂ RR₂)
    (hb₁ : FdlBad fo₁ N C FR₁) (hb₂ : FdlBad fo₂ N C FR₂)
    (hp₁ : FilterLaw po₁ N C RR₁ AR₁ p₁ H) (hp₂ : FilterLaw po₂ N C RR₂ AR₂ p₂ H)
    (block : List R) (u₁ : Upc Ov F₁ P₁ A₁) (u₂ : Upc Ov F₂ P₂ A₂)
    (h : UpcRel N FR₁ FR₂ AR₁ AR₂ p₁ p₂ u₁ u₂) :
    (∃ e, u₁.call oo fo₁ po₁ block = .error e ∧ u₂.call oo fo₂ po₂ block = .error e) ∨
    ∃ v₁ v₂ out, u₁.call oo fo₁ po₁ block = .ok (v₁, out) ∧ u₂.call oo fo₂ po₂ block = .ok (v₂, out) ∧
      UpcRel N FR₁ FR₂ AR₁ AR₂ p₁ p₂ v₁ v₂ := by
  obtain ⟨h1, rfl, rfl, h4⟩ := h
  have key := ho (InnerRel N FR₁ FR₂ AR₁ AR₂) u₁.overlap block (Upc.callback fo₁ po₁ u₁.filter)
    (Upc.callback fo₂ po₂ u₂.filter) _ _ h4
    (fun sp s₁ s₂ hs => callback_rel hf₁ hf₂ hb₁ hb₂ hp₁ hp₂ sp s₁ s₂ hs)
  unfold Upc.call
  rw [← h1]
  revert key
  generalize oo.call u₁.overlap block (Upc.callback fo₁ po₁ u₁.filter)
    ⟨u₁.fdl, u₁.indexer, u₁.accumulator⟩ = m₁
  generalize oo.call u₁.overlap block (Upc.callback fo₂ po₂ u₂.filter)
    ⟨u₂.fdl, u₂.indexer, u₂.accumulator⟩ = m₂
  intro key
  rcases m₁ with e | ⟨o, bl, s⟩ <;> rcases m₂ with e' | ⟨o', bl', t⟩
  · obtain rfl : e = e' := key
    exact .inl ⟨e, rfl, rfl⟩
  · exact key.elim
  · exact key.elim
  · obtain ⟨rfl, hb, hr⟩ := key
    simp only [] at hb hr
    subst hb
    exact .inr ⟨_, _, bl, rfl, rfl, rfl, rfl, rfl, hr⟩

/-- Outputs of a run. -/
def outputs {S β γ : Type} (step : S → β → Res (S × γ)) (s : S) (bs : List β) : Res (List γ) := do
  let (_, outs) ← runBlocks step s bs
  pure outs

theorem runBlocks_rel {S₁ S₂ β γ : Type} {step₁ : S₁ → β → Res (S₁ × γ)}
    {step₂ : S₂ → β → Res (S₂ × γ)} (R : S₁ → S₂ → Prop)
    (hstep : ∀ b s₁ s₂, R s₁ s₂ → (∃ e, step₁ s₁ b = .error e ∧ step₂ s₂ b = .error e) ∨
      ∃ t₁ t₂ c, step₁ s₁ b = .ok (t₁, c) ∧ step₂ s₂ b = .ok (t₂, c) ∧ R t₁ t₂) (bs : List β) :
    ∀ s₁ s₂, R s₁ s₂ → outputs step₁ s₁ bs = outputs step₂ s₂ bs := by
  induction bs with
  | nil => intro _ _ _; rfl
  | cons b bs ih =>
    intro s₁ s₂ h
    unfold outputs runBlocks
    rcases hstep b s₁ s₂ h with ⟨e, h1, h2⟩ | ⟨t₁, t₂, c, h1, h2, h3⟩
    · rw [h1, h2]; rfl
    · rw [h1, h2, bind_ok, bind_ok]
      have := ih t₁ t₂ h3
      unfold outputs at this
      simp only []
      revert this
      generalize runBlocks step₁ t₁ bs = m₁
      generalize runBlocks step₂ t₂ bs = m₂
      intro this
      rcases m₁ with e | ⟨a, b⟩ <;> rcases m₂ with e' | ⟨a', b'⟩ <;>
        simp only [bind_error, bind_ok, pure_eq_ok] at this ⊢
      · injection this with this; rw [this]
      · cases this
      · cases this
      · injection this with this; rw [this]

theorem run_rel {oo : OverlapOps Ov R K} (ho : OverlapParam oo) {fo₁ : FdlOps F₁ R₁ K}
    {fo₂ : FdlOps F₂ R₂ K} {po₁ : FilterOps P₁ R₁ A₁ G₁ K}
    {po₂ : FilterOps P₂ R₂ A₂ G₂ K} {v₁ v₂ : MatView} {FR₁ : F₁ → (ℕ → ℕ → K) → Prop}
    {FR₂ : F₂ → (ℕ → ℕ → K) → Prop} {RR₁ : R₁ → (ℕ → K) → Prop} {RR₂ : R₂ → (ℕ → K) → Prop}
    {AR₁ : A₁ → (ℕ → K) → Prop} {AR₂ : A₂ → (ℕ → K) → Prop} {H : ℕ → ℕ → K} {f₁ : P₁} {f₂ : P₂}
    (hr : v₁.rows = v₂.rows) (hc : v₁.cols = v₂.cols)
    (hf₁ : FdlLaw fo₁ v₁.rows v₁.cols FR₁ RR₁) (hf₂ : FdlLaw fo₂ v₁.rows v₁.cols FR₂ RR₂)
    (hb₁ : 1 ≤ v₁.cols → FdlBad fo₁ v₁.rows v₁.cols FR₁)
    (hb₂ : 1 ≤ v₁.cols → FdlBad fo₂ v₁.rows v₁.cols FR₂) (d₁ d₂ : List K) (g₁ : G₁) (g₂ : G₂)
    (hp₁ : ∀ f0, ∃ p, po₁.load f0 v₁ d₁ g₁ = .ok p ∧
      FilterLaw po₁ v₁.rows v₁.cols RR₁ AR₁ p H)
    (hp₂ : ∀ f0, ∃ p, po₂.load f0 v₂ d₂ g₂ = .ok p ∧
      FilterLaw po₂ v₁.rows v₁.cols RR₂ AR₂ p H) (blocks : List (List R)) :
    Upc.run oo fo₁ po₁ f₁ v₁ d₁ g₁ blocks = Upc.run oo fo₂ po₂ f₂ v₂ d₂ g₂ blocks := by
  unfold Upc.run Upc.make
  cases oo.make 1 1 with
  | error e => rfl
  | ok o0 =>
    simp only [bind_ok, pure_eq_ok]
    unfold Upc.load
    rw [← hc, ← hr]
    by_cases h0 : v₁.cols = 0
    · rw [if_pos h0, if_pos h0]; rfl
    rw [if_neg h0, if_neg h0, bind_ok, bind_ok]
    cases oo.make (v₁.cols - 1) (v₁.cols - 1) with
    | error e => rfl
    | ok o1 =>
      simp only [bind_ok]
      obtain ⟨q₁, e₁, l₁⟩ := hp₁ f₁
      obtain ⟨q₂, e₂, l₂⟩ := hp₂ f₂
      rw [e₁, e₂]
      simp only [bind_ok, pure_eq_ok]
      refine runBlocks_rel (UpcRel v₁.rows FR₁ FR₂ AR₁ AR₂ q₁ q₂) (fun b s₁ s₂ hs =>
        call_rel ho hf₁ hf₂ (hb₁ (by omega)) (hb₂ (by omega)) l₁ l₂ b s₁ s₂ hs) blocks _ _ ?_
      exact ⟨rfl, rfl, rfl, rfl, rfl, fun h => h, ⟨_, hf₁.make, hf₂.make⟩, _, _, l₁.accMake, l₂.accMake⟩

end

end Neo

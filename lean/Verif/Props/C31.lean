import Verif.ProofRules.Approx
import Mathlib.Order.Basic
import Mathlib.Data.List.Forall2

/-!
# C31: approximation kinds form the intended order and combination
-/

namespace Caesar

/-- The meaning of an approximation kind (the documentation of the constants,
`src/proof_rules/calculus/soundness_checker.rs:184-203`). -/
def ApproxKind.Describes {L : Type} [Preorder L] (k : ApproxKind) (vc sem : L) : Prop :=
  (k.under = true → vc ≤ sem) ∧ (k.over = true → sem ≤ vc)

/-- The order of kinds: `a` is less precise than `b`. -/
def ApproxKind.Le (a b : ApproxKind) : Prop := (a.under = true → b.under = true) ∧ (a.over = true → b.over = true)

/-- The order is what it should be: each pair of values described by the more precise kind is described by the less
precise one, and conversely. -/
theorem C31_order (a b : ApproxKind) :
    a.Le b ↔ ∀ (x y : ℕ), b.Describes x y → a.Describes x y := by
  constructor
  · rintro ⟨h1, h2⟩ x y ⟨h3, h4⟩
    exact ⟨fun h => h3 (h1 h), fun h => h4 (h2 h)⟩
  · intro h
    refine ⟨fun ha => ?_, fun ha => ?_⟩
    · by_contra hb
      have := (h 1 0 ⟨fun h => (hb h).elim, fun _ => Nat.zero_le _⟩).1 ha
      omega
    · by_contra hb
      have := (h 0 1 ⟨fun _ => Nat.zero_le _, fun h => (hb h).elim⟩).2 ha
      omega

/-- The combination is commutative, associative, idempotent, has `EXACT` as unit and `UNKNOWN` as zero. -/
theorem C31_algebra (a b c : ApproxKind) :
    a.and b = b.and a ∧ (a.and b).and c = a.and (b.and c) ∧ a.and a = a ∧
      ApproxKind.exact.and a = a ∧ ApproxKind.unknown.and a = ApproxKind.unknown ∧
      ApproxKind.under'.and .over' = .unknown := by
  obtain ⟨a1, a2⟩ := a
  obtain ⟨b1, b2⟩ := b
  obtain ⟨c1, c2⟩ := c
  cases a1 <;> cases a2 <;> cases b1 <;> cases b2 <;> cases c1 <;> cases c2 <;> exact ⟨rfl, rfl, rfl, rfl, rfl, rfl⟩

/-- The combination is the greatest lower bound. -/
theorem C31_glb (a b c : ApproxKind) : c.Le (a.and b) ↔ c.Le a ∧ c.Le b := by
  unfold ApproxKind.Le ApproxKind.and
  simp only [Bool.and_eq_true]
  constructor
  · exact fun h => ⟨⟨fun hc => (h.1 hc).1, fun hc => (h.2 hc).1⟩, ⟨fun hc => (h.1 hc).2, fun hc => (h.2 hc).2⟩⟩
  · exact fun h => ⟨fun hc => ⟨h.1.1 hc, h.2.1 hc⟩, fun hc => ⟨h.1.2 hc, h.2.2 hc⟩⟩

/-- Soundness of the combination: a monotone operation on values described by the operands is described by their
combination. -/
theorem C31_combine {L M N : Type} [Preorder L] [Preorder M] [Preorder N] (F : L → M → N)
    (hF : ∀ {x x' y y'}, x ≤ x' → y ≤ y' → F x y ≤ F x' y') (a b : ApproxKind) {x x' : L} {y y' : M}
    (hx : a.Describes x x') (hy : b.Describes y y') : (a.and b).Describes (F x y) (F x' y') := by
  refine ⟨fun h => ?_, fun h => ?_⟩
  · have h' := Bool.and_eq_true_iff.1 h
    exact hF (hx.1 h'.1) (hy.1 h'.2)
  · have h' := Bool.and_eq_true_iff.1 h
    exact hF (hx.2 h'.1) (hy.2 h'.2)

theorem infimum_under (l : List ApproxKind) (acc : ApproxKind) :
    ((l.foldl ApproxKind.and acc).under = true ↔ acc.under = true ∧ ∀ k ∈ l, k.under = true) ∧
    ((l.foldl ApproxKind.and acc).over = true ↔ acc.over = true ∧ ∀ k ∈ l, k.over = true) := by
  induction l generalizing acc with
  | nil => exact ⟨⟨fun h => ⟨h, fun _ hk => (by cases hk)⟩, fun h => h.1⟩, ⟨fun h => ⟨h, fun _ hk => (by cases hk)⟩, fun h => h.1⟩⟩
  | cons k l ih =>
    rw [List.foldl_cons, (ih _).1, (ih _).2]
    simp only [ApproxKind.and, Bool.and_eq_true, List.forall_mem_cons, and_assoc]
    exact ⟨trivial, trivial⟩

/-- The infimum of a list is the greatest kind below all its elements. -/
theorem C31_infimum (l : List ApproxKind) (c : ApproxKind) : c.Le (.infimum l) ↔ ∀ k ∈ l, c.Le k := by
  unfold ApproxKind.Le ApproxKind.infimum
  rw [(infimum_under l _).1, (infimum_under l _).2]
  exact ⟨fun h k hk => ⟨fun hc => (h.1 hc).2 k hk, fun hc => (h.2 hc).2 k hk⟩,
    fun h => ⟨fun hc => ⟨rfl, fun k hk => (h k hk).1 hc⟩, fun hc => ⟨rfl, fun k hk => (h k hk).2 hc⟩⟩⟩

/-- The infimum describes each monotone combination of values described by the elements. -/
theorem C31_infimum_sound {L N : Type} [Preorder L] [Preorder N] (F : List L → N)
    (hF : ∀ {xs ys : List L}, List.Forall₂ (· ≤ ·) xs ys → F xs ≤ F ys)
    (l : List ApproxKind) (xs ys : List L) (hlen : l.length = xs.length) (hlen' : l.length = ys.length)
    (h : ∀ i (hi : i < l.length), (l[i]).Describes (xs[i]'(hlen ▸ hi)) (ys[i]'(hlen' ▸ hi))) :
    (ApproxKind.infimum l).Describes (F xs) (F ys) := by
  refine ⟨fun hu => hF ?_, fun ho => hF ?_⟩
  · rw [List.forall₂_iff_get]
    refine ⟨hlen.symm.trans hlen', fun i h1 h2 => (h i (hlen ▸ h1)).1 ?_⟩
    exact ((infimum_under l _).1.1 hu).2 _ (List.getElem_mem _)
  · rw [List.forall₂_iff_get]
    refine ⟨hlen'.symm.trans hlen, fun i h1 h2 => (h i (hlen' ▸ h1)).2 ?_⟩
    exact ((infimum_under l _).2.1 ho).2 _ (List.getElem_mem _)

/-- The soundness flags of a procedure: if its approximations describe `vc` with respect to `sem`, then a proof of the bound
for `vc` implies the bound for `sem` if proofs are sound, and a refutation for `vc` implies the refutation for
`sem` if refutations are sound. The bound is a lower one for `Down` and an upper one for `Up`. -/
theorem C31_soundness {L : Type} [Preorder L] (d : Dir) (l : List ApproxKind) (pre vc sem : L)
    (h : (ApproxKind.infimum l).Describes vc sem) :
    let bound := fun x : L => match d with | .down => pre ≤ x | .up => x ≤ pre
    ((ProcSoundness.new d l).soundProofs = true → bound vc → bound sem) ∧
    ((ProcSoundness.new d l).soundRefutations = true → ¬ bound vc → ¬ bound sem) := by
  cases d with
  | down => exact ⟨fun hs hb => le_trans hb (h.1 hs), fun hs hb hb' => hb (le_trans hb' (h.2 hs))⟩
  | up => exact ⟨fun hs hb => le_trans (h.2 hs) hb, fun hs hb hb' => hb (le_trans (h.1 hs) hb')⟩

/-- The flags are not overly pessimistic: if proofs are not reported as sound, the approximations also describe a pair of
values for which a bound on `vc` does not carry over. -/
theorem C31_soundness_exact (d : Dir) (l : List ApproxKind) (h : (ProcSoundness.new d l).soundProofs = false) :
    ∃ pre vc sem : ℕ, (ApproxKind.infimum l).Describes vc sem ∧
      match d with | .down => pre ≤ vc ∧ ¬ pre ≤ sem | .up => vc ≤ pre ∧ ¬ sem ≤ pre := by
  cases d with
  | down =>
    replace h : (ApproxKind.infimum l).under = false := h
    exact ⟨1, 1, 0, ⟨fun h' => (by rw [h] at h'; cases h'), fun _ => Nat.zero_le _⟩, by simp⟩
  | up =>
    replace h : (ApproxKind.infimum l).over = false := h
    exact ⟨0, 0, 1, ⟨fun _ => Nat.zero_le _, fun h' => by rw [h] at h'; cases h'⟩, by simp⟩

example : (ApproxKind.infimum [.under', .exact]).Describes (L := ℕ) 3 5 ∧
    (ProcSoundness.new .down [.under', .exact]).soundProofs = true :=
  ⟨⟨fun _ => (by decide), fun h => (by cases h)⟩, rfl⟩

end Caesar

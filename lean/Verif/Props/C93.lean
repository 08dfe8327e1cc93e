import Verif.Props.C92

/-!
# C93: terminators end the body

The rule `@ost` is only sound if nothing comes after the loop. The `EncodingVisitor` refuses every other place.
-/

namespace Caesar
namespace ProofRules
namespace Unpack

open Front

/-! ## Specification -/

/-- There is no `@ost` among the annotated statements. -/
def NoOst (Γ : Ctx) (cs : List (Ident × List RExpr × RStmt)) : Prop := ∀ c ∈ cs, Γ c.1 ≠ some (.annot .ost)

/-- A body either has no `@ost`, or it ends with a loop that has this annotation, and there is no other. -/
def Placed (Γ : Ctx) (ss : List RStmt) : Prop :=
  NoOst Γ (callsB ss) ∨
    ∃ before f args g b, ss = before ++ [.annot f args (.while g b)] ∧ Γ f = some (.annot .ost) ∧ NoOst Γ (callsB before) ∧ NoOst Γ (callsB b)

/-- The full property: accepted bodies have terminators only at the end. -/
def C93_full : Prop := ∀ (Γ : Ctx) (ss : List RStmt) (st : VState), encB Γ ss .start = .ok st → Placed Γ ss

/-! ## Lemmas -/

theorem NoOst.append {Γ : Ctx} {a b : List (Ident × List RExpr × RStmt)} (ha : NoOst Γ a) (hb : NoOst Γ b) : NoOst Γ (a ++ b) := fun c hc =>
  (List.mem_append.1 hc).elim (ha c) (hb c)

theorem NoOst.left {Γ : Ctx} {a b : List (Ident × List RExpr × RStmt)} (h : NoOst Γ (a ++ b)) : NoOst Γ a := fun c hc => h c (List.mem_append_left _ hc)

theorem NoOst.right {Γ : Ctx} {a b : List (Ident × List RExpr × RStmt)} (h : NoOst Γ (a ++ b)) : NoOst Γ b := fun c hc => h c (List.mem_append_right _ hc)

theorem NoOst.nil (Γ : Ctx) : NoOst Γ [] := fun _ h => nomatch h

theorem NoOst.one {Γ : Ctx} {f : Ident} {args : List RExpr} {s : RStmt} (h : Γ f ≠ some (.annot .ost)) : NoOst Γ [(f, args, s)] := fun c hc => by
  rcases List.mem_singleton.1 hc with rfl
  exact h

/-- The call of `transform` in `apply`. -/
theorem apply_ok {k : AnnKind} {args : List RExpr} {s : RStmt} {st st' : VState} (h : apply k args s st = .ok st') :
    (k = .ost → st.nesting = 0 ∧ isWhile s = true ∧ st'.ended = true) ∧ (k ≠ .ost → st'.ended = st.ended) ∧
      (isRule k = true → st.inProc = true) := by
  by_cases hk : isRule k = true
  · have h : (if st.inProc = false then (.error .notInProcedure : M VState)
        else if isWhile s = false then .error .notOnWhile
        else if isTerminator k = true ∧ 0 < st.nesting then .error .notTerminator
        else do
          let r ← transform k args s
          return { st with rules := st.rules ++ r.toList, ended := st.ended || isTerminator k }) = .ok st' := by
      cases k <;> first | exact h | cases hk
    split at h
    · cases h
    split at h
    · cases h
    split at h
    · cases h
    rename_i hp hw ht
    obtain ⟨r, -, h⟩ := ok_bind h
    cases h
    refine ⟨?_, ?_, fun _ => by simpa using hp⟩
    · rintro rfl
      refine ⟨?_, by simpa using hw, by simp [isTerminator]⟩
      by_contra hn
      exact ht ⟨rfl, Nat.pos_of_ne_zero hn⟩
    · intro hne
      have : isTerminator k = false := by cases k <;> first | rfl | exact absurd rfl hne
      simp [this]
  · cases k with
    | slice a b =>
      cases h
      exact ⟨nofun, fun _ => rfl, nofun⟩
    | _ => exact absurd rfl hk

mutual

theorem encS_ended (Γ : Ctx) : ∀ (s : RStmt) {st st' : VState}, st.ended = true → encS Γ s st ≠ .ok st'
  | .annot f args s, st, st', he, h => by
    simp only [encS] at h
    obtain ⟨st₁, h₁, -⟩ := ok_bind h
    exact encS_ended Γ s (st := { st with nesting := st.nesting + 1 }) he h₁
  | .ite _ _ _, st, st', he, h | .demonic _ _, st, st', he, h | .angelic _ _, st, st', he, h | .additive _ _, st, st', he, h
  | .seq _, st, st', he, h | .while _ _, st, st', he, h
  | .var _ _ _, st, st', he, h | .assign _ _, st, st', he, h | .havoc _ _, st, st', he, h | .assert _ _, st, st', he, h
  | .assume _ _, st, st', he, h | .compare _ _, st, st', he, h | .negate _, st, st', he, h | .validate _, st, st', he, h
  | .tick _, st, st', he, h | .weigh _, st, st', he, h | .label _, st, st', he, h => by
    simp only [encS, he, if_true] at h
    cases h

end

/-- The visit of nested statements: no terminator is found. -/
def Inner (Γ : Ctx) (cs : List (Ident × List RExpr × RStmt)) (st st' : VState) : Prop := NoOst Γ cs ∧ st'.ended = st.ended

theorem encTwo_inner {Γ : Ctx} {a b : List RStmt} (ha : ∀ {st st' : VState}, 0 < st.nesting → encB Γ a st = .ok st' → Inner Γ (callsB a) st st')
    (hb : ∀ {st st' : VState}, 0 < st.nesting → encB Γ b st = .ok st' → Inner Γ (callsB b) st st') {st st' : VState}
    (h : (if st.ended = true then (.error .notTerminator : M VState) else do
      let st ← encB Γ a { st with nesting := st.nesting + 1 }
      let st ← encB Γ b st
      return { st with nesting := st.nesting - 1 }) = .ok st') : Inner Γ (callsB a ++ callsB b) st st' := by
  split at h
  · cases h
  obtain ⟨st₁, h₁, h⟩ := ok_bind h
  obtain ⟨st₂, h₂, h⟩ := ok_bind h
  cases h
  obtain ⟨i₁, e₁⟩ := ha (Nat.succ_pos _) h₁
  obtain ⟨i₂, e₂⟩ := hb (by rw [(encB_visited Γ a h₁).nesting]; exact Nat.succ_pos _) h₂
  exact ⟨i₁.append i₂, e₂.trans e₁⟩

mutual

theorem encS_inner (Γ : Ctx) : ∀ (s : RStmt) {st st' : VState}, 0 < st.nesting → encS Γ s st = .ok st' → Inner Γ (calls s) st st'
  | .annot f args s, st, st', hn, h => by
    simp only [encS] at h
    obtain ⟨st₁, h₁, h⟩ := ok_bind h
    obtain ⟨i, e⟩ := encS_inner Γ s (st := { st with nesting := st.nesting + 1 }) (Nat.succ_pos _) h₁
    have hv := (encS_visited Γ s h₁).nesting
    simp only [calls]
    split at h
    · rename_i k hk
      obtain ⟨h1, h2, -⟩ := apply_ok h
      have hne : k ≠ .ost := by
        rintro rfl
        have := (h1 rfl).1
        simp only [hv] at this
        omega
      exact ⟨i.append (.one (by rw [hk]; rintro ⟨⟩; exact hne rfl)), (h2 hne).trans e⟩
    · rename_i d hk hf
      cases h
      exact ⟨i.append (.one (by rw [hf]; rintro ⟨⟩; exact hk _ rfl)), e⟩
    · cases h
  | .ite _ a b, st, st', hn, h | .demonic a b, st, st', hn, h | .angelic a b, st, st', hn, h | .additive a b, st, st', hn, h => by
    simp only [encS] at h
    exact encTwo_inner (encB_inner Γ a) (encB_inner Γ b) h
  | .seq ss, st, st', hn, h => by
    simp only [encS] at h
    split at h
    · cases h
    obtain ⟨st₁, h₁, h⟩ := ok_bind h
    cases h
    obtain ⟨i, e⟩ := encB_inner Γ ss (st := { st with nesting := st.nesting + 1 }) (Nat.succ_pos _) h₁
    exact ⟨i, e⟩
  | .while _ b, st, st', hn, h => by
    simp only [encS] at h
    split at h
    · cases h
    exact encB_inner Γ b hn h
  | .var _ _ _, st, st', hn, h | .assign _ _, st, st', hn, h | .havoc _ _, st, st', hn, h | .assert _ _, st, st', hn, h
  | .assume _ _, st, st', hn, h | .compare _ _, st, st', hn, h | .negate _, st, st', hn, h | .validate _, st, st', hn, h
  | .tick _, st, st', hn, h | .weigh _, st, st', hn, h | .label _, st, st', hn, h => by
    simp only [encS] at h
    split at h
    · cases h
    cases h
    exact ⟨.nil Γ, rfl⟩

theorem encB_inner (Γ : Ctx) : ∀ (ss : List RStmt) {st st' : VState}, 0 < st.nesting → encB Γ ss st = .ok st' → Inner Γ (callsB ss) st st'
  | [], st, st', hn, h => by
    simp only [encB] at h
    cases h
    exact ⟨.nil Γ, rfl⟩
  | s :: ss, st, st', hn, h => by
    simp only [encB] at h
    obtain ⟨st₁, h₁, h₂⟩ := ok_bind h
    obtain ⟨i₁, e₁⟩ := encS_inner Γ s hn h₁
    obtain ⟨i₂, e₂⟩ := encB_inner Γ ss (by rw [(encS_visited Γ s h₁).nesting]; exact hn) h₂
    exact ⟨i₁.append i₂, e₂.trans e₁⟩

end

theorem encS_top {Γ : Ctx} {s : RStmt} {st st' : VState} (hw : isWhile s = false) (h : encS Γ s st = .ok st') :
    Inner Γ (calls s) st st' ∨
      ∃ f args g b, s = .annot f args (.while g b) ∧ Γ f = some (.annot .ost) ∧ NoOst Γ (callsB b) ∧ st'.ended = true := by
  cases s with
  | «while» g b => cases hw
  | annot f args s =>
    simp only [encS] at h
    obtain ⟨st₁, h₁, h⟩ := ok_bind h
    obtain ⟨i, e⟩ := encS_inner Γ s (st := { st with nesting := st.nesting + 1 }) (Nat.succ_pos _) h₁
    simp only [calls]
    split at h
    · rename_i k hk
      obtain ⟨h1, h2, -⟩ := apply_ok h
      by_cases hne : k = .ost
      · subst hne
        obtain ⟨-, hw, he⟩ := h1 rfl
        cases s <;> first | cases hw; done | exact .inr ⟨f, args, _, _, rfl, hk, i, he⟩
      · exact .inl ⟨i.append (.one (by rw [hk]; rintro ⟨⟩; exact hne rfl)), (h2 hne).trans e⟩
    · rename_i d hk hf
      cases h
      exact .inl ⟨i.append (.one (by rw [hf]; rintro ⟨⟩; exact hk _ rfl)), e⟩
    · cases h
  | ite _ a b | demonic a b | angelic a b | additive a b =>
    simp only [encS] at h
    exact .inl (encTwo_inner (encB_inner Γ a) (encB_inner Γ b) h)
  | seq ss =>
    simp only [encS] at h
    split at h
    · cases h
    obtain ⟨st₁, h₁, h⟩ := ok_bind h
    cases h
    obtain ⟨i, e⟩ := encB_inner Γ ss (st := { st with nesting := st.nesting + 1 }) (Nat.succ_pos _) h₁
    exact .inl ⟨i, e⟩
  | _ =>
    simp only [encS] at h
    split at h
    · cases h
    cases h
    exact .inl ⟨.nil Γ, rfl⟩

theorem encB_placed {Γ : Ctx} : ∀ {ss : List RStmt} {st st' : VState}, (∀ s ∈ ss, isWhile s = false) → encB Γ ss st = .ok st' → Placed Γ ss
  | [], st, st', hw, h => .inl (.nil Γ)
  | s :: ss, st, st', hw, h => by
    simp only [encB] at h
    obtain ⟨st₁, h₁, h₂⟩ := ok_bind h
    rcases encS_top (hw s (.head _)) h₁ with ⟨i, -⟩ | ⟨f, args, g, b, rfl, hf, i, he⟩
    · rcases encB_placed (fun s hs => hw s (.tail _ hs)) h₂ with h | ⟨before, f, args, g, b, rfl, hf, hb, hb'⟩
      · exact .inl (i.append h)
      · exact .inr ⟨s :: before, f, args, g, b, rfl, hf, i.append hb, hb'⟩
    · cases ss with
      | nil => exact .inr ⟨[], f, args, g, b, rfl, hf, .nil Γ, i⟩
      | cons s ss =>
        simp only [encB] at h₂
        obtain ⟨st₂, h₂, -⟩ := ok_bind h₂
        exact absurd h₂ (encS_ended Γ s he)

theorem transform_error {k : AnnKind} {args : List RExpr} {s : RStmt} : transform k args s ≠ .error .notTerminator := by
  have one : oneArg args ≠ .error .notTerminator := by unfold oneArg; split <;> nofun
  have two : twoArgs args ≠ .error .notTerminator := by unfold twoArgs; split <;> nofun
  have three : threeArgs args ≠ .error .notTerminator := by unfold threeArgs; split <;> nofun
  have four : fourArgs args ≠ .error .notTerminator := by unfold fourArgs; split <;> nofun
  have five : fiveArgs args ≠ .error .notTerminator := by unfold fiveArgs; split <;> nofun
  have lit : ∀ e, litU128 e ≠ .error .notTerminator := by
    intro e
    unfold litU128
    split
    · split <;> nofun
    · nofun
  have rat : ∀ e, litRational e ≠ .error .notTerminator := by
    intro e
    induction e using litRational.induct <;> simp_all [litRational]
  have free : ∀ e, freeVar e ≠ .error .notTerminator := by intro e; unfold freeVar; split <;> nofun
  have it : iter s ≠ .error .notTerminator := by unfold iter; split <;> nofun
  have its : ∀ n, iters n s ≠ .error .notTerminator := by
    intro n
    unfold iters
    split
    · nofun
    · exact it
  have ref : ∀ (p : Prop) [Decidable p] e, refuse p e ≠ .error .notTerminator := by intro p _ e; unfold refuse; split <;> nofun
  have loop : theLoop s ≠ .error .notTerminator := by unfold theLoop; split <;> nofun
  intro h
  cases k with
  | invariant =>
    rcases panic_bind h with h | ⟨_, -, h⟩
    · exact one h
    rcases panic_bind h with h | ⟨_, -, h⟩
    · exact it h
    cases h
  | kInduction =>
    rcases panic_bind h with h | ⟨_, -, h⟩
    · exact two h
    rcases panic_bind h with h | ⟨_, -, h⟩
    · exact lit _ h
    rcases panic_bind h with h | ⟨_, -, h⟩
    · exact ref _ _ h
    rcases panic_bind h with h | ⟨_, -, h⟩
    · exact it h
    cases h
  | unroll =>
    rcases panic_bind h with h | ⟨_, -, h⟩
    · exact two h
    rcases panic_bind h with h | ⟨_, -, h⟩
    · exact lit _ h
    rcases panic_bind h with h | ⟨_, -, h⟩
    · exact its _ h
    cases h
  | omegaInvariant =>
    rcases panic_bind h with h | ⟨_, -, h⟩
    · exact two h
    rcases panic_bind h with h | ⟨_, -, h⟩
    · exact free _ h
    rcases panic_bind h with h | ⟨_, -, h⟩
    · exact it h
    cases h
  | past =>
    rcases panic_bind h with h | ⟨_, -, h⟩
    · exact three h
    rcases panic_bind h with h | ⟨_, -, h⟩
    · exact rat _ h
    rcases panic_bind h with h | ⟨_, -, h⟩
    · exact rat _ h
    rcases panic_bind h with h | ⟨_, -, h⟩
    · exact ref _ _ h
    rcases panic_bind h with h | ⟨_, -, h⟩
    · exact loop h
    cases h
  | ost =>
    rcases panic_bind h with h | ⟨_, -, h⟩
    · exact four h
    rcases panic_bind h with h | ⟨_, -, h⟩
    · exact loop h
    cases h
  | ast =>
    rcases panic_bind h with h | ⟨_, -, h⟩
    · exact five h
    rcases panic_bind h with h | ⟨_, -, h⟩
    · exact loop h
    rcases panic_bind h with h | ⟨_, -, h⟩
    · exact free _ h
    cases h
  | slice a b => cases h

/-- The error for terminators in `apply`. -/
theorem apply_refused {k : AnnKind} {args : List RExpr} {s : RStmt} {st : VState} (h : apply k args s st = .error .notTerminator) :
    k = .ost ∧ 0 < st.nesting := by
  by_cases hk : isRule k = true
  · have h : (if st.inProc = false then (.error .notInProcedure : M VState)
        else if isWhile s = false then .error .notOnWhile
        else if isTerminator k = true ∧ 0 < st.nesting then .error .notTerminator
        else do
          let r ← transform k args s
          return { st with rules := st.rules ++ r.toList, ended := st.ended || isTerminator k }) = .error .notTerminator := by
      cases k <;> first | exact h | cases hk
    split at h
    · cases h
    split at h
    · cases h
    split at h
    · rename_i ht
      refine ⟨?_, ht.2⟩
      have ht := ht.1
      cases k <;> first | rfl | cases ht
    · rcases panic_bind h with h | ⟨_, -, h⟩
      · exact absurd h transform_error
      · cases h
  · cases k <;> first | cases h | exact absurd rfl hk

/-- A visit that begins before every terminator, and that finds none. -/
def Quiet (m : M VState) : Prop := m ≠ .error .notTerminator ∧ ∀ st, m = .ok st → st.ended = false

theorem Quiet.ok {st : VState} (h : st.ended = false) : Quiet (.ok st) := ⟨nofun, fun _ e => by cases e; exact h⟩

theorem Quiet.bind {m : M VState} {f : VState → M VState} (hm : Quiet m) (hf : ∀ st, st.ended = false → Quiet (f st)) : Quiet (m >>= f) := by
  cases m with
  | error e => exact ⟨fun h => hm.1 (by cases h; rfl), nofun⟩
  | ok st => exact hf st (hm.2 st rfl)

mutual

theorem encS_quiet (Γ : Ctx) : ∀ (s : RStmt) {st : VState}, st.ended = false → NoOst Γ (calls s) → Quiet (encS Γ s st)
  | .annot f args s, st, he, hn => by
    simp only [encS]
    refine (encS_quiet Γ s (st := { st with nesting := st.nesting + 1 }) he hn.left).bind fun st₁ he => ?_
    have hf := hn.right (f, args, s) (.head _)
    split
    · rename_i k hk
      have hne : k ≠ .ost := by rintro rfl; exact hf hk
      exact ⟨fun h => hne (apply_refused h).1, fun st h => ((apply_ok h).2.1 hne).trans he⟩
    · exact .ok he
    · exact ⟨nofun, nofun⟩
  | .ite _ a b, st, he, hn | .demonic a b, st, he, hn | .angelic a b, st, he, hn | .additive a b, st, he, hn => by
    simp only [encS]
    rw [if_neg (by simp [he])]
    refine (encB_quiet Γ a (st := { st with nesting := st.nesting + 1 }) he hn.left).bind fun st₁ he => ?_
    refine (encB_quiet Γ b he hn.right).bind fun st₂ he => ?_
    exact Quiet.ok (st := { st₂ with nesting := st₂.nesting - 1 }) he
  | .seq ss, st, he, hn => by
    simp only [encS]
    rw [if_neg (by simp [he])]
    refine (encB_quiet Γ ss (st := { st with nesting := st.nesting + 1 }) he hn).bind fun st₁ he => ?_
    exact Quiet.ok (st := { st₁ with nesting := st₁.nesting - 1 }) he
  | .while _ b, st, he, hn => by
    simp only [encS]
    rw [if_neg (by simp [he])]
    exact encB_quiet Γ b he hn
  | .var _ _ _, st, he, hn | .assign _ _, st, he, hn | .havoc _ _, st, he, hn | .assert _ _, st, he, hn
  | .assume _ _, st, he, hn | .compare _ _, st, he, hn | .negate _, st, he, hn | .validate _, st, he, hn
  | .tick _, st, he, hn | .weigh _, st, he, hn | .label _, st, he, hn => by
    simp only [encS]
    rw [if_neg (by simp [he])]
    exact .ok he

theorem encB_quiet (Γ : Ctx) : ∀ (ss : List RStmt) {st : VState}, st.ended = false → NoOst Γ (callsB ss) → Quiet (encB Γ ss st)
  | [], st, he, hn => by
    simp only [encB]
    exact .ok he
  | s :: ss, st, he, hn => by
    simp only [encB]
    exact (encS_quiet Γ s he hn.left).bind fun st₁ he => encB_quiet Γ ss he hn.right

end

theorem encB_append {Γ : Ctx} : ∀ (a b : List RStmt) (st : VState), encB Γ (a ++ b) st = encB Γ a st >>= encB Γ b
  | [], b, st => by
    simp only [List.nil_append, encB]
    rfl
  | s :: a, b, st => by
    simp only [List.cons_append, encB, encB_append a b]
    cases encS Γ s st <;> rfl

mutual

theorem encS_raw (Γ : Ctx) : ∀ (s : RStmt) {st st' : VState}, st.inProc = false → encS Γ s st = .ok st' → ruleCalls Γ (calls s) = []
  | .annot f args s, st, st', hp, h => by
    simp only [encS] at h
    obtain ⟨st₁, h₁, h⟩ := ok_bind h
    have ih := encS_raw Γ s (st := { st with nesting := st.nesting + 1 }) hp h₁
    have hv := (encS_visited Γ s h₁).inProc
    simp only [calls, ruleCalls_append, ih, List.nil_append]
    refine List.filter_eq_nil_iff.2 fun c hc => ?_
    rcases List.mem_singleton.1 hc with rfl
    split at h
    · rename_i k hk
      simp only [hk]
      intro hr
      have := (apply_ok h).2.2 hr
      simp only [hv, hp] at this
      cases this
    · rename_i d hk hf
      have : ∀ k, d ≠ .annot k := fun k e => hk k e
      simp only [hf]
      cases d <;> first | exact absurd rfl (this _) | exact Bool.false_ne_true
    · cases h
  | .ite _ a b, st, st', hp, h | .demonic a b, st, st', hp, h | .angelic a b, st, st', hp, h | .additive a b, st, st', hp, h => by
    simp only [encS] at h
    split at h
    · cases h
    obtain ⟨st₁, h₁, h⟩ := ok_bind h
    obtain ⟨st₂, h₂, h⟩ := ok_bind h
    have ha := encB_raw Γ a (st := { st with nesting := st.nesting + 1 }) hp h₁
    have hb := encB_raw Γ b ((encB_visited Γ a h₁).inProc.trans hp) h₂
    simp only [calls, ruleCalls_append, ha, hb, List.nil_append]
  | .seq ss, st, st', hp, h => by
    simp only [encS] at h
    split at h
    · cases h
    obtain ⟨st₁, h₁, h⟩ := ok_bind h
    exact encB_raw Γ ss (st := { st with nesting := st.nesting + 1 }) hp h₁
  | .while _ b, st, st', hp, h => by
    simp only [encS] at h
    split at h
    · cases h
    exact encB_raw Γ b hp h
  | .var _ _ _, st, st', hp, h | .assign _ _, st, st', hp, h | .havoc _ _, st, st', hp, h | .assert _ _, st, st', hp, h
  | .assume _ _, st, st', hp, h | .compare _ _, st, st', hp, h | .negate _, st, st', hp, h | .validate _, st, st', hp, h
  | .tick _, st, st', hp, h | .weigh _, st, st', hp, h | .label _, st, st', hp, h => rfl

theorem encB_raw (Γ : Ctx) : ∀ (ss : List RStmt) {st st' : VState}, st.inProc = false → encB Γ ss st = .ok st' → ruleCalls Γ (callsB ss) = []
  | [], st, st', hp, h => rfl
  | s :: ss, st, st', hp, h => by
    simp only [encB] at h
    obtain ⟨st₁, h₁, h₂⟩ := ok_bind h
    have ha := encS_raw Γ s hp h₁
    have hb := encB_raw Γ ss ((encS_visited Γ s h₁).inProc.trans hp) h₂
    simp only [callsB, ruleCalls_append, ha, hb, List.nil_append]

end

/-! ## The theorems -/

/-- If a body is accepted in which no loop is without annotation at the top level, then its terminators are placed as they must. -/
theorem C93_partial {Γ : Ctx} {ss : List RStmt} (hw : ∀ g b, .while g b ∉ ss) {st : VState} (h : encB Γ ss .start = .ok st) : Placed Γ ss :=
  encB_placed (fun s hs => by cases s <;> first | rfl | exact absurd hs (hw _ _)) h

/-- Bodies are only refused because of terminators if the terminators are not placed as they must. -/
theorem C93_refused {Γ : Ctx} {ss : List RStmt} (h : encB Γ ss .start = .error .notTerminator) : ¬ Placed Γ ss := by
  rintro (hn | ⟨before, f, args, g, b, rfl, hf, hn, hb⟩)
  · exact (encB_quiet Γ ss rfl hn).1 h
  · rw [encB_append] at h
    rcases panic_bind h with h | ⟨st, h₁, h⟩
    · exact (encB_quiet Γ before rfl hn).1 h
    have he := (encB_quiet Γ before rfl hn).2 st h₁
    have hv : st.nesting = 0 := (encB_visited Γ before h₁).nesting
    simp only [encB] at h
    rcases panic_bind h with h | ⟨st₁, -, h⟩
    · simp only [encS] at h
      have hb' : (if st.ended = true then (.error .notTerminator : M VState) else encB Γ b { st with nesting := st.nesting + 1 }) =
          encB Γ b { st with nesting := st.nesting + 1 } := by simp [he]
      rw [hb'] at h
      rcases panic_bind h with h | ⟨st₂, h₂, h⟩
      · exact (encB_quiet Γ b (st := { st with nesting := st.nesting + 1 }) he hb).1 h
      rw [hf] at h
      have := (apply_refused h).2
      have hn₂ : st₂.nesting = st.nesting + 1 := (encB_visited Γ b h₂).nesting
      simp only [hn₂, hv] at this
      omega
    · cases h

/-- Outside of procedures, only statements without proof rules are accepted. -/
theorem C93_raw {Γ : Ctx} {ss : List RStmt} {st : VState} (h : encB Γ ss ⟨false, 0, false, []⟩ = .ok st) :
    ∀ f args s k, (f, args, s) ∈ callsB ss → Γ f = some (.annot k) → isRule k = false := by
  intro f args s k hc hk
  have := List.filter_eq_nil_iff.1 (encB_raw Γ ss rfl h) _ hc
  simpa only [hk, Bool.not_eq_true] using this

/-! ## Programs -/

/-- A context with two annotations. -/
def c93Ctx : Ctx := fun f =>
  if f = ⟨"ost", 0⟩ then some (.annot .ost)
  else if f = ⟨"invariant", 0⟩ then some (.annot .invariant)
  else none

/-- `true` -/
def c93True : RExpr := .lit none (.bool true)

/-- `@ost(1, 1, 1, 1) while true {}` -/
def c93Ost : RStmt :=
  .annot ⟨"ost", 0⟩ [.lit none (.uint 1), .lit none (.uint 1), .lit none (.uint 1), .lit none (.uint 1)] (.while c93True [])

/-- `while true { @ost(1, 1, 1, 1) while true {} }`: loops without annotation do not count as nesting. Such loops are refused later
(`src/vc/vcgen.rs:179`). -/
theorem C93_not_full : ¬ C93_full := by
  intro h
  rcases h c93Ctx [.while c93True [c93Ost]] _ rfl with h | ⟨before, f, args, g, b, h, -⟩
  · exact h _ (.head _) rfl
  · rcases before with _ | ⟨s, _ | _⟩ <;> cases h

/-- `@invariant(1) while true {}; @ost(1, 1, 1, 1) while true {}` meets the assumptions of `C93_partial`. -/
example : Placed c93Ctx [.annot ⟨"invariant", 0⟩ [.lit none (.uint 1)] (.while c93True []), c93Ost] :=
  C93_partial (st := _) (by simp [c93Ost]) rfl

/-- `@ost(1, 1, 1, 1) while true {}; @ost(1, 1, 1, 1) while true {}` is refused. -/
example : ¬ Placed c93Ctx [c93Ost, c93Ost] := C93_refused rfl

/-- `if true { @ost(1, 1, 1, 1) while true {} } else {}` is refused. -/
example : ¬ Placed c93Ctx [.ite c93True [c93Ost] []] := C93_refused rfl

/-- `assert 1` is accepted outside of procedures, and `@ost(1, 1, 1, 1) while true {}` is not. -/
example : (∃ st, encB c93Ctx [.assert .down (.lit none (.uint 1))] ⟨false, 0, false, []⟩ = .ok st) ∧
    encB c93Ctx [c93Ost] ⟨false, 0, false, []⟩ = .error .notInProcedure := ⟨⟨_, rfl⟩, rfl⟩

end Unpack
end ProofRules
end Caesar

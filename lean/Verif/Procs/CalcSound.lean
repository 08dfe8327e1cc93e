import Verif.Props.C27
import Verif.Props.C33
import Verif.Props.C34
import Verif.Driver.Lower
import Verif.ProofRules.TrackingSound
import Mathlib.Order.WellFounded
import Mathlib.Data.Set.Finite.Basic
import Mathlib.Data.Set.Finite.List
import Mathlib.Data.Fintype.WithTopBot

/-!
# Helper lemmas for calculi and procedures
-/

open scoped ENNReal NNReal

namespace Caesar
set_option linter.unusedSectionVars false

/-! ## `validate` only directly before `assume` -/

/-- The statement starts with `assume` in direction `d`. -/
def Stmt.HeadAssume (d : Dir) : Stmt → Prop
  | .seq (.annot (.slicing _) (.assume d' _)) _ => d' = d
  | _ => False

/-- Every `validate` is directly followed by `assume`, as in the encoding of induction. -/
def Stmt.Guarded : Stmt → Prop
  | .seq (.validate d) b => b.HeadAssume d ∧ b.Guarded
  | .seq a b => a.Guarded ∧ b.Guarded
  | .demonic a b | .angelic a b | .additive a b | .ite _ a b => a.Guarded ∧ b.Guarded
  | .while _ s => s.Guarded
  | .annot _ s => s.Guarded
  | .validate _ => False
  | _ => True

theorem Stmt.guarded_seq {a b : Stmt} (ha : a.Guarded) (hb : b.Guarded) : (Stmt.seq a b).Guarded := by
  cases a with
  | validate d => exact ha.elim
  | _ => exact ⟨ha, hb⟩

theorem Stmt.guarded_of_noValidate {S : Stmt} (h : S.NoValidate) : S.Guarded := by
  induction S with
  | seq a b iha ihb => exact Stmt.guarded_seq (iha h.1) (ihb h.2)
  | demonic a b iha ihb | angelic a b iha ihb | additive a b iha ihb | ite c a b iha ihb => exact ⟨iha h.1, ihb h.2⟩
  | «while» c s ih => exact ih h
  | annot an s ih => exact ih h
  | validate d => exact h.elim
  | _ => trivial

theorem Stmt.guarded_block {ss : List Stmt} (h : ∀ s ∈ ss, s.Guarded) : (Stmt.block ss).Guarded := by
  induction ss with
  | nil => trivial
  | cons s ss ih => exact Stmt.guarded_seq (h s List.mem_cons_self) (ih fun t ht => h t (List.mem_cons_of_mem _ ht))

theorem encodeExtend_guarded {c : Expr .bool} {b next : Stmt} (hb : b.Guarded) (hn : next.Guarded) (k : Nat)
    (I : Expr .eureal) (d : Dir) : (encodeExtend c b k I d next).Guarded := by
  induction k with
  | zero => exact hn
  | succ k ih => exact ⟨trivial, ⟨Stmt.guarded_seq hb ih, trivial⟩, trivial⟩

theorem transform_guarded {c : Expr .bool} {b : Stmt} (hb : b.Guarded) (k : Nat) (I : Expr .eureal) (d : Dir) :
    (transformKInduction d k I c b).Guarded := by
  refine ⟨trivial, trivial, rfl, trivial, ⟨Stmt.guarded_seq hb (encodeExtend_guarded hb ?_ _ _ _), trivial⟩, trivial⟩
  split <;> exact ⟨trivial, trivial, trivial⟩

theorem encodeUnroll_guarded {c : Expr .bool} {b next : Stmt} (hb : b.Guarded) (hn : next.Guarded) (k : Nat) :
    (encodeUnroll c b k next).Guarded := by
  induction k with
  | zero => exact hn
  | succ k ih => exact ⟨⟨Stmt.guarded_seq hb ih, trivial⟩, trivial⟩

theorem encodeLoops_guarded {d : Dir} {S S' : Stmt} (h : encodeLoops d S = .ok S') (hS : S.NoValidate) : S'.Guarded := by
  induction S generalizing S' with
  | seq a b iha ihb =>
    obtain ⟨a', b', h1, h2, rfl⟩ := encode_seq_ok h
    exact Stmt.guarded_seq (iha h1 hS.1) (ihb h2 hS.2)
  | demonic a b iha ihb | angelic a b iha ihb | additive a b iha ihb | ite c a b iha ihb =>
    obtain ⟨a', b', h1, h2, rfl⟩ := encode_seq_ok h
    exact ⟨iha h1 hS.1, ihb h2 hS.2⟩
  | «while» c s ih =>
    obtain ⟨s', h1, h2⟩ := bind_ok h
    cases h2
    exact (ih h1 hS : s'.Guarded)
  | annot an s ih =>
    obtain ⟨s', h1, h2⟩ := bind_ok h
    have hs := ih h1 hS
    rcases encodeAnnot_cases h2 with ⟨n, rfl, rfl⟩ | ⟨I, c, b, rfl, rfl, rfl⟩ | ⟨k, I, c, b, rfl, hk, rfl, rfl⟩ |
      ⟨k, t, c, b, rfl, rfl, rfl⟩
    · exact hs
    · exact transform_guarded (b := b) hs _ _ _
    · exact transform_guarded (b := b) hs _ _ _
    · exact encodeUnroll_guarded (b := b) (next := heyConst t d) hs ⟨trivial, trivial, trivial⟩ k
  | validate d => exact hS.elim
  | _ => cases h; trivial

section
variable [Doms] [Interp]

theorem vcgen_headAssume {d : Dir} {b : Stmt} (hb : b.HeadAssume d) {p p' : Expr .eureal} (h : vcgen b p = .ok p') :
    ValidateOk (.validate d) p' := by
  match b, hb with
  | .seq (.annot (.slicing _) (.assume d' e)) r, hb =>
    obtain rfl : d' = d := hb
    obtain ⟨q, _, hq⟩ := bind_ok h
    cases d'
    · cases hq; exact Or.inl ⟨_, _, rfl⟩
    · cases hq; exact Or.inl ⟨_, _, rfl⟩

theorem Stmt.Guarded.validateOk {S : Stmt} (h : S.Guarded) (p : Expr .eureal) : ValidateOk S p := by
  induction S generalizing p with
  | seq a b iha ihb =>
    cases a with
    | validate d => exact ⟨ihb h.2 p, fun p' hp' => vcgen_headAssume h.1 hp'⟩
    | _ => exact ⟨ihb h.2 p, fun p' _ => iha h.1 p'⟩
  | demonic a b iha ihb | angelic a b iha ihb | additive a b iha ihb | ite c a b iha ihb => exact ⟨iha h.1 p, ihb h.2 p⟩
  | annot an s ih => exact ih h p
  | validate d => exact h.elim
  | _ => trivial

end

/-! ## Replacing calls keeps the shape -/

/-- Statements with neither substatements nor `validate`, `sample` or `negate`. -/
def Stmt.PlainAtom : Stmt → Prop
  | .annot (.slicing _) (.assert _ _) | .annot (.slicing _) (.compare _ _) => True
  | .assign _ _ | .varInit _ _ | .varDecl _ | .havoc _ _ => True
  | _ => False

theorem stableInputs_plain (free : List Var) {ps : List Param} : ∀ {declared : List Var} {args : List ((t : Ty) × Expr t)},
    ∀ s ∈ (stableInputs free declared ps args).1, s.PlainAtom := by
  induction ps with
  | nil => intro declared args s hs; cases args <;> exact absurd hs List.not_mem_nil
  | cons p ps ih =>
    intro declared args s hs
    cases args with
    | nil => exact absurd hs List.not_mem_nil
    | cons a args =>
      obtain ⟨t, e⟩ := a
      unfold stableInputs at hs
      split at hs
      · split at hs
        · have ha : (assignToTemp declared p (‹t = p.var.ty› ▸ e)).1.PlainAtom := by
            unfold assignToTemp
            split <;> trivial
          rcases List.mem_cons.mp hs with rfl | hs
          · exact ha
          · exact ih s hs
        · exact ih s hs
      · exact ih s hs

theorem encodeAssign_plain (declared : List Var) (p : Proc) (lhs : List Var) (args : List ((t : Ty) × Expr t)) :
    ∀ s ∈ (encodeAssign declared p lhs args).1, s.PlainAtom := by
  intro s hs
  unfold encodeAssign at hs
  rcases List.mem_append.mp hs with hs | hs
  · rcases List.mem_append.mp hs with hs | hs
    · rcases List.mem_append.mp hs with hs | hs
      · obtain ⟨e, -, rfl⟩ := List.mem_map.mp hs; trivial
      · exact stableInputs_plain _ s hs
    · rw [List.mem_singleton.mp hs]; trivial
  · obtain ⟨e, -, rfl⟩ := List.mem_map.mp hs; trivial

theorem Stmt.PlainAtom.shape {s : Stmt} (h : s.PlainAtom) : s.Guarded ∧ s.GoodDists := by
  cases s with
  | annot an s =>
    cases an with
    | slicing n => cases s <;> first | exact ⟨trivial, trivial⟩ | exact h.elim
    | _ => exact h.elim
  | assign | varInit | varDecl | havoc => exact ⟨trivial, trivial⟩
  | _ => exact h.elim

theorem goodDists_block {ss : List Stmt} (h : ∀ s ∈ ss, s.GoodDists) : (Stmt.block ss).GoodDists := by
  induction ss with
  | nil => trivial
  | cons s ss ih => exact ⟨h s List.mem_cons_self, ih fun t ht => h t (List.mem_cons_of_mem _ ht)⟩

theorem specCall_two {procs : ProcTable} {d : Dir} {a b : Stmt} {F : Stmt → Stmt → Stmt} {decl decl' : List Var} {S : Stmt}
    (h : (do
      let (a, declared) ← specCall procs d a decl
      let (b, declared) ← specCall procs d b declared
      return (F a b, declared)) = some (S, decl')) :
    ∃ a' b' decl1 decl2, specCall procs d a decl = some (a', decl1) ∧ specCall procs d b decl1 = some (b', decl2) ∧
      S = F a' b' := by
  cases h1 : specCall procs d a decl with
  | none => rw [h1] at h; exact nomatch h
  | some r1 =>
    rw [h1] at h
    cases h2 : specCall procs d b r1.2 with
    | none =>
      have h : ((specCall procs d b r1.2).bind _ : Option _) = _ := h
      rw [h2] at h; exact nomatch h
    | some r2 =>
      have h : ((specCall procs d b r1.2).bind _ : Option _) = _ := h
      rw [h2] at h
      obtain ⟨rfl, -⟩ := Prod.mk.inj (Option.some.inj h)
      exact ⟨r1.1, r2.1, r1.2, r2.2, rfl, h2, rfl⟩

theorem specCall_one {procs : ProcTable} {d : Dir} {a : Stmt} {F : Stmt → Stmt} {decl decl' : List Var} {S : Stmt}
    (h : (do
      let (a, declared) ← specCall procs d a decl
      return (F a, declared)) = some (S, decl')) :
    ∃ a' decl1, specCall procs d a decl = some (a', decl1) ∧ S = F a' := by
  cases h1 : specCall procs d a decl with
  | none => rw [h1] at h; exact nomatch h
  | some r1 =>
    rw [h1] at h
    obtain ⟨rfl, -⟩ := Prod.mk.inj (Option.some.inj h)
    exact ⟨r1.1, r1.2, rfl, rfl⟩

theorem specCall_call {procs : ProcTable} {d : Dir} {i : Bool} {l : List Var} {f : Ident} {a : List ((t : Ty) × Expr t)}
    {decl decl' : List Var} {S : Stmt} (h : specCall procs d (.call i l f a) decl = some (S, decl')) :
    S = .call i l f a ∨ ∃ ss, S = Stmt.block ss ∧ ∀ s ∈ ss, s.PlainAtom := by
  unfold specCall at h
  cases hp : procs f with
  | none => simp only [hp, Option.some.injEq, Prod.mk.injEq] at h; exact Or.inl h.1.symm
  | some p =>
    simp only [hp] at h
    split at h
    · simp only [Option.some.injEq, Prod.mk.injEq] at h
      refine Or.inr ⟨_, h.1.symm, fun s hs => ?_⟩
      rcases List.mem_append.mp hs with hs | hs
      · obtain ⟨x, -, rfl⟩ := List.mem_map.mp hs; trivial
      · exact encodeAssign_plain _ _ _ _ s hs
    · split at h
      · exact nomatch h
      · simp only [Option.some.injEq, Prod.mk.injEq] at h
        exact Or.inr ⟨_, h.1.symm, encodeAssign_plain _ _ _ _⟩

theorem specCall_goodDists {procs : ProcTable} {d : Dir} {B : Stmt} (hB : B.GoodDists) : ∀ {decl : List Var} {S : Stmt}
    {decl' : List Var}, specCall procs d B decl = some (S, decl') → S.GoodDists := by
  induction B with
  | call i l f a =>
    intro decl S decl' h
    rcases specCall_call h with rfl | ⟨ss, rfl, hss⟩
    · exact hB
    · exact goodDists_block fun s hs => (hss s hs).shape.2
  | seq a b iha ihb | demonic a b iha ihb | angelic a b iha ihb | additive a b iha ihb | ite c a b iha ihb =>
    intro decl S decl' h
    unfold specCall at h
    obtain ⟨a', b', d1, d2, h1, h2, rfl⟩ := specCall_two h
    exact ⟨iha hB.1 h1, ihb hB.2 h2⟩
  | «while» c s ih =>
    intro decl S decl' h
    unfold specCall at h
    obtain ⟨a', d1, h1, rfl⟩ := specCall_one h
    exact (ih hB h1 : a'.GoodDists)
  | annot an s ih =>
    intro decl S decl' h
    unfold specCall at h
    obtain ⟨a', d1, h1, rfl⟩ := specCall_one h
    exact (ih hB h1 : a'.GoodDists)
  | _ =>
    intro decl S decl' h
    unfold specCall at h
    obtain ⟨rfl, -⟩ := Prod.mk.inj (Option.some.inj h)
    exact hB

theorem specCall_headAssume {procs : ProcTable} {d d' : Dir} {B : Stmt} (hB : B.HeadAssume d') {decl decl' : List Var}
    {S : Stmt} (h : specCall procs d B decl = some (S, decl')) : S.HeadAssume d' := by
  match B, hB with
  | .seq (.annot (.slicing n) (.assume d'' e)) r, hB =>
    unfold specCall at h
    obtain ⟨a', b', d1, d2, h1, h2, rfl⟩ := specCall_two h
    obtain ⟨rfl, -⟩ := Prod.mk.inj (Option.some.inj h1)
    exact hB

theorem specCall_guarded {procs : ProcTable} {d : Dir} {B : Stmt} (hB : B.Guarded) : ∀ {decl : List Var} {S : Stmt}
    {decl' : List Var}, specCall procs d B decl = some (S, decl') → S.Guarded := by
  induction B with
  | call i l f a =>
    intro decl S decl' h
    rcases specCall_call h with rfl | ⟨ss, rfl, hss⟩
    · exact hB
    · exact Stmt.guarded_block fun s hs => (hss s hs).shape.1
  | seq a b iha ihb =>
    intro decl S decl' h
    unfold specCall at h
    obtain ⟨a', b', d1, d2, h1, h2, rfl⟩ := specCall_two h
    cases a with
    | validate d' =>
      obtain ⟨rfl, -⟩ := Prod.mk.inj (Option.some.inj h1)
      exact ⟨specCall_headAssume hB.1 h2, ihb hB.2 h2⟩
    | _ => exact Stmt.guarded_seq (iha hB.1 h1) (ihb hB.2 h2)
  | demonic a b iha ihb | angelic a b iha ihb | additive a b iha ihb | ite c a b iha ihb =>
    intro decl S decl' h
    unfold specCall at h
    obtain ⟨a', b', d1, d2, h1, h2, rfl⟩ := specCall_two h
    exact ⟨iha hB.1 h1, ihb hB.2 h2⟩
  | «while» c s ih =>
    intro decl S decl' h
    unfold specCall at h
    obtain ⟨a', d1, h1, rfl⟩ := specCall_one h
    exact (ih hB h1 : a'.Guarded)
  | annot an s ih =>
    intro decl S decl' h
    unfold specCall at h
    obtain ⟨a', d1, h1, rfl⟩ := specCall_one h
    exact (ih hB h1 : a'.Guarded)
  | validate d' => exact hB.elim
  | _ =>
    intro decl S decl' h
    unfold specCall at h
    obtain ⟨rfl, -⟩ := Prod.mk.inj (Option.some.inj h)
    trivial

/-- The verification task of a procedure whose loops have been encoded. -/
theorem task_shape {p : Proc} {B B' T : Stmt} {d d' : Dir} (hE : encodeLoops d B = .ok B') (hp : p.body = some B')
    (hV : B.NoValidate) (hG : B.GoodDists) (hT : encodeProcVerify p = some (d', T)) : T.Guarded ∧ T.GoodDists := by
  unfold encodeProcVerify at hT
  rw [hp] at hT
  obtain ⟨rfl, rfl⟩ := Prod.mk.inj (Option.some.inj hT)
  have key : ∀ s ∈ (p.requires.map fun e => wrapSuccess (.assume p.dir e)) ++ [B'] ++
      (p.ensures.map fun e => wrapError (.assert p.dir e)), s.Guarded ∧ s.GoodDists := by
    intro s hs
    rcases List.mem_append.mp hs with hs | hs
    · rcases List.mem_append.mp hs with hs | hs
      · obtain ⟨e, -, rfl⟩ := List.mem_map.mp hs; exact ⟨trivial, trivial⟩
      · rw [List.mem_singleton.mp hs]; exact ⟨encodeLoops_guarded hE hV, encodeLoops_goodDists hE hG⟩
    · obtain ⟨e, -, rfl⟩ := List.mem_map.mp hs; exact ⟨trivial, trivial⟩
  exact ⟨Stmt.guarded_block fun s hs => (key s hs).1, goodDists_block fun s hs => (key s hs).2⟩

/-! ## Rules accepted by the soundness analysis -/

section
variable [Doms] [Interp]

/-- Unrolling starts at bottom (top) for least (greatest) fixed points; neither loop rules nor negations in `additive`
branches; no rules that generate procedures. -/
def Stmt.UnrollsOk (fk : FixKind) : Stmt → Prop
  | .seq a b | .demonic a b | .angelic a b | .ite _ a b => a.UnrollsOk fk ∧ b.UnrollsOk fk
  | .additive a b => (a.NoRules ∧ a.NoNeg) ∧ (b.NoRules ∧ b.NoNeg)
  | .while _ s => s.UnrollsOk fk
  | .annot (.invariant _) s | .annot (.kInduction _ _) s | .annot (.slicing _) s => s.UnrollsOk fk
  | .annot (.unroll _ t) s => (t.ev = fk.start) ∧ s.UnrollsOk fk
  | .annot _ _ => False
  | _ => True

/-- The side of the approximation that makes proofs sound. -/
def ProofSide (d : Dir) (k : ApproxKind) : Prop :=
  match d with
  | .down => k.under = true
  | .up => k.over = true

theorem rulesOk_of_track {d : Dir} {c : CalculusType} {S : Stmt} (hU : S.UnrollsOk c.toFix)
    (h : ∀ k ∈ trackApprox d (some c) S, ProofSide d k) : S.RulesOk d c.toFix := by
  induction S with
  | seq a b iha ihb | demonic a b iha ihb | angelic a b iha ihb | ite _ a b iha ihb =>
    exact ⟨iha hU.1 fun k hk => h k (List.mem_append_left _ hk), ihb hU.2 fun k hk => h k (List.mem_append_right _ hk)⟩
  | additive a b => exact hU
  | «while» _ s ih => exact ih hU h
  | annot an s ih =>
    cases an with
    | slicing n => exact ih hU h
    | unroll k t => exact ⟨hU.1, ih hU.2 fun k hk => h k (List.mem_append_left _ hk)⟩
    | invariant I =>
      refine ⟨?_, ih hU fun k hk => h k (List.mem_append_left _ hk)⟩
      have h1 := h _ (List.mem_append_right _ (List.mem_singleton.2 rfl))
      cases d <;> cases c <;> first | rfl | cases h1
    | kInduction k I =>
      refine ⟨?_, ih hU fun k hk => h k (List.mem_append_left _ hk)⟩
      have h1 := h _ (List.mem_append_right _ (List.mem_singleton.2 rfl))
      cases d <;> cases c <;> first | rfl | cases h1
    | _ => exact hU.elim
  | _ => trivial

/-- If the soundness analysis says that proofs are sound, the encoding of the loops is on the safe side. -/
theorem encoded_le {d : Dir} {c : CalculusType} {C : SemCtx} (hC : C.Regular) (hl : C.loop = c.toFix.loopSem)
    {S S' : Stmt} (hU : S.UnrollsOk c.toFix) {A : Var → Prop} (hL : S.LocalsOk A) {φ : Exp} (hφ : Ignores A φ)
    (h : encodeLoops d S = .ok S') (hs : (procSoundness d (some c) S).soundProofs = true) :
    d.Le (vcSem C S' φ) (vcSem C S φ) := by
  have hall : ∀ k ∈ trackApprox d (some c) S, ProofSide d k := by
    cases d with
    | down => exact ((infimum_under _ _).1.1 hs).2
    | up => exact ((infimum_under _ _).2.1 hs).2
  have h1 := trackApprox_sound hC hl (rulesOk_of_track hU hall) (Stmt.fixIs_calculus d c S) hL hφ h
  cases d with
  | down => exact h1.1 hs
  | up => exact h1.2 hs

/-! ## Only the meanings of callees matter -/

theorem vcSem_ctx_congr {k : LoopSem} {procs : ProcTable} {Γ Γ' : ProcSem} {S : Stmt}
    (h : ∀ f, ContainsCall f S → Γ f = Γ' f) : vcSem (callCtx k procs Γ) S = vcSem (callCtx k procs Γ') S := by
  induction S with
  | call i l f a =>
    have hf := h f (.call i l a)
    funext φ σ
    show (match procs f with | none => _ | some p => _) = (match procs f with | none => _ | some p => _)
    rw [hf]
  | seq a b iha ihb =>
    funext φ
    show vcSem _ a (vcSem _ b φ) = vcSem _ a (vcSem _ b φ)
    rw [iha fun f hf => h f (.seqL hf), ihb fun f hf => h f (.seqR hf)]
  | demonic a b iha ihb =>
    funext φ σ
    show min _ _ = min _ _
    rw [iha fun f hf => h f (.demonicL hf), ihb fun f hf => h f (.demonicR hf)]
  | angelic a b iha ihb =>
    funext φ σ
    show max _ _ = max _ _
    rw [iha fun f hf => h f (.angelicL hf), ihb fun f hf => h f (.angelicR hf)]
  | additive a b iha ihb =>
    funext φ σ
    show _ + _ = _ + _
    rw [iha fun f hf => h f (.additiveL hf), ihb fun f hf => h f (.additiveR hf)]
  | ite c a b iha ihb =>
    classical
    funext φ σ
    show (if _ then _ else _) = (if _ then _ else _)
    rw [iha fun f hf => h f (.iteL hf), ihb fun f hf => h f (.iteR hf)]
  | «while» c s ih =>
    have := ih fun f hf => h f (.while hf)
    funext φ
    rw [vcSem_while, vcSem_while]
    unfold loopFun
    rw [this]
    rfl
  | annot an s ih => exact ih fun f hf => h f (.annot hf)
  | havoc d xs | assert d e | assume d e | compare d e | validate d | negate d => cases d <;> rfl
  | _ => rfl

theorem containsCall_of_calls {lhs : List Var} {f : Ident} {args : List ((t : Ty) × Expr t)} {S : Stmt}
    (h : S.Calls lhs f args) : ContainsCall f S := by
  induction S with
  | call i l g a => obtain ⟨rfl, rfl, rfl⟩ := h; exact .call ..
  | seq a b iha ihb => exact h.elim (fun h => .seqL (iha h)) fun h => .seqR (ihb h)
  | demonic a b iha ihb => exact h.elim (fun h => .demonicL (iha h)) fun h => .demonicR (ihb h)
  | angelic a b iha ihb => exact h.elim (fun h => .angelicL (iha h)) fun h => .angelicR (ihb h)
  | additive a b iha ihb => exact h.elim (fun h => .additiveL (iha h)) fun h => .additiveR (ihb h)
  | ite c a b iha ihb => exact h.elim (fun h => .iteL (iha h)) fun h => .iteR (ihb h)
  | «while» c s ih => exact .while (ih h)
  | annot an s ih => exact .annot (ih h)
  | _ => exact h.elim

theorem calls_of_containsCall {f : Ident} {S : Stmt} (h : ContainsCall f S) : ∃ lhs args, S.Calls lhs f args := by
  induction h with
  | call i l a => exact ⟨l, a, rfl, rfl, rfl⟩
  | seqL _ ih | demonicL _ ih | angelicL _ ih | additiveL _ ih | iteL _ ih =>
    obtain ⟨l, a, h⟩ := ih; exact ⟨l, a, Or.inl h⟩
  | seqR _ ih | demonicR _ ih | angelicR _ ih | additiveR _ ih | iteR _ ih =>
    obtain ⟨l, a, h⟩ := ih; exact ⟨l, a, Or.inr h⟩
  | «while» _ ih | annot _ ih => obtain ⟨l, a, h⟩ := ih; exact ⟨l, a, h⟩

end

end Caesar

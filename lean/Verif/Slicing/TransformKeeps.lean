import Verif.Slicing.TransformSound
import Verif.Procs.CalcSound
import Verif.Props.C10

/-!
# What the slicing transformation keeps

The conditions of the later steps of the pipeline (declared variables, no user-written quantifiers, the shape around `validate`, success of
verification condition generation) carry over to the transformed program.
-/

open scoped ENNReal NNReal

namespace Caesar
set_option linter.unusedSectionVars false
open Slicing

/-- `assume` in direction `d`, possibly with slicing annotations. -/
def Stmt.IsAssume (d : Dir) : Stmt → Prop
  | .assume d' _ => d' = d
  | .annot (.slicing _) s => s.IsAssume d
  | _ => False

/-- The statement starts with `assume` in direction `d`. -/
def Stmt.StartsAssume (d : Dir) : Stmt → Prop
  | .seq a _ => a.IsAssume d
  | _ => False

/-- Every `validate` is directly followed by `assume`; slicing annotations do not matter. -/
def Stmt.SGuarded : Stmt → Prop
  | .seq (.validate d) b => b.StartsAssume d ∧ b.SGuarded
  | .seq a b => a.SGuarded ∧ b.SGuarded
  | .demonic a b | .angelic a b | .additive a b | .ite _ a b => a.SGuarded ∧ b.SGuarded
  | .while _ s => s.SGuarded
  | .annot _ s => s.SGuarded
  | .validate _ => False
  | _ => True

theorem Stmt.HeadAssume.starts {d : Dir} {S : Stmt} (h : S.HeadAssume d) : S.StartsAssume d := by
  match S, h with
  | .seq (.annot (.slicing _) (.assume d' _)) _, h => exact h

theorem Stmt.Guarded.sguarded {S : Stmt} (h : S.Guarded) : S.SGuarded := by
  induction S with
  | seq a b iha ihb =>
    cases a with
    | validate d => exact ⟨h.1.starts, ihb h.2⟩
    | _ => exact ⟨iha h.1, ihb h.2⟩
  | demonic a b iha ihb | angelic a b iha ihb | additive a b iha ihb | ite c a b iha ihb => exact ⟨iha h.1, ihb h.2⟩
  | «while» c s ih => exact ih h
  | annot an s ih => exact ih h
  | validate d => exact h.elim
  | _ => trivial

theorem Stmt.sguarded_seq {a b : Stmt} (ha : a.SGuarded) (hb : b.SGuarded) : (Stmt.seq a b).SGuarded := by
  cases a with
  | validate d => exact ha.elim
  | _ => exact ⟨ha, hb⟩

section
variable [Doms] [Interp]

theorem isAssume_vcgen {d : Dir} {s : Stmt} (hs : s.IsAssume d) {p p' : Expr .eureal} (h : vcgen s p = .ok p') :
    ValidateOk (.validate d) p' := by
  induction s with
  | assume d' e =>
    obtain rfl : d' = d := hs
    cases d'
    · cases h; exact Or.inl ⟨_, _, rfl⟩
    · cases h; exact Or.inl ⟨_, _, rfl⟩
  | annot an s ih =>
    cases an with
    | slicing n => exact ih hs h
    | _ => exact hs.elim
  | _ => exact hs.elim

theorem Stmt.SGuarded.validateOk {S : Stmt} (h : S.SGuarded) (p : Expr .eureal) : ValidateOk S p := by
  induction S generalizing p with
  | seq a b iha ihb =>
    cases a with
    | validate d =>
      refine ⟨ihb h.2 p, fun p' hp' => ?_⟩
      have hb := h.1
      cases b with
      | seq b1 b2 =>
        obtain ⟨q, _, hq⟩ := bind_ok hp'
        exact isAssume_vcgen hb hq
      | _ => exact hb.elim
    | _ => exact ⟨ihb h.2 p, fun p' _ => iha h.1 p'⟩
  | demonic a b iha ihb | angelic a b iha ihb | additive a b iha ihb | ite c a b iha ihb => exact ⟨iha h.1 p, ihb h.2 p⟩
  | annot an s ih => exact ih h p
  | validate d => exact h.elim
  | _ => trivial

end

/-! ## Success of verification condition generation -/

/-- Verification condition generation succeeds: no calls, loops or unknown annotations, and all distributions have a value. -/
def Stmt.Core : Stmt → Prop
  | .sample _ _ d => ∃ ds, d.apply = .ok ds ∧ ds ≠ []
  | .call _ _ _ _ => False
  | .while _ _ => False
  | .annot (.slicing _) s => s.Core
  | .annot _ _ => False
  | .seq a b | .demonic a b | .angelic a b | .additive a b | .ite _ a b => a.Core ∧ b.Core
  | _ => True

theorem vcgen_core {S : Stmt} : ∀ {p e : Expr .eureal}, vcgen S p = .ok e → S.Core := by
  induction S with
  | seq a b iha ihb =>
    intro p e h
    obtain ⟨p', h1, h2⟩ := bind_ok h
    exact ⟨iha h2, ihb h1⟩
  | demonic a b iha ihb | angelic a b iha ihb | additive a b iha ihb | ite c a b iha ihb =>
    intro p e h
    obtain ⟨p1, h1, h⟩ := bind_ok h
    obtain ⟨p2, h2, h⟩ := bind_ok h
    exact ⟨iha h1, ihb h2⟩
  | sample b x d =>
    intro p e h
    obtain ⟨ds, h1, h2⟩ := bind_ok h
    refine ⟨ds, h1, ?_⟩
    rintro rfl
    exact nomatch h2
  | call => intro p e h; nomatch h
  | «while» => intro p e h; nomatch h
  | annot an s ih =>
    intro p e h
    cases an with
    | slicing n => exact ih h
    | _ => nomatch h
  | _ => exact fun _ => trivial

theorem core_vcgen {S : Stmt} : S.Core → ∀ p : Expr .eureal, ∃ e, vcgen S p = .ok e := by
  induction S with
  | seq a b iha ihb =>
    intro h p
    obtain ⟨p', h1⟩ := ihb h.2 p
    obtain ⟨e, h2⟩ := iha h.1 p'
    exact ⟨e, by rw [vcgen, h1]; exact h2⟩
  | demonic a b iha ihb | angelic a b iha ihb | additive a b iha ihb | ite c a b iha ihb =>
    intro h p
    obtain ⟨p1, h1⟩ := iha h.1 p
    obtain ⟨p2, h2⟩ := ihb h.2 p
    exact ⟨_, by rw [vcgen, h1, h2]; rfl⟩
  | sample b x d =>
    intro h p
    obtain ⟨ds, h1, h2⟩ := h
    cases ds with
    | nil => exact absurd rfl h2
    | cons a ds => exact ⟨_, by rw [vcgen, h1]; rfl⟩
  | call => exact fun h => h.elim
  | «while» => exact fun h => h.elim
  | annot an s ih =>
    intro h p
    cases an with
    | slicing n => exact ih h p
    | _ => exact h.elim
  | havoc d xs => intro _ p; cases d <;> exact ⟨_, rfl⟩
  | assert d e => intro _ p; cases d <;> exact ⟨_, rfl⟩
  | assume d e => intro _ p; cases d <;> exact ⟨_, rfl⟩
  | compare d e => intro _ p; cases d <;> exact ⟨_, rfl⟩
  | negate d => intro _ p; cases d <;> exact ⟨_, rfl⟩
  | validate d => intro _ p; cases d <;> (unfold vcgen; split <;> exact ⟨_, rfl⟩)
  | _ => exact fun _ p => ⟨_, rfl⟩

/-! ## The transformation -/

namespace Slicing

/-- The toggles are declared. -/
theorem freshToggle_mem (c : TyCtx) : (freshToggle c).1 ∈ (freshToggle c).2.decls := by
  rw [(freshToggle_spec c).2]
  exact List.mem_cons_self

/-- Induction over the traversal: a property of statement and state which holds after leaves, and is kept by the combinations. -/
theorem visit_induct {f : Selection} {Q : Stmt → St → Res → Prop}
    (leaf : ∀ S state st, (∀ state st, visit f state st S = sliceLeaf f state st S) → Q S st (sliceLeaf f state st S))
    (seqs : ∀ mk a b st ra, (mk = Stmt.seq ∨ mk = Stmt.additive ∨ ∃ c, mk = Stmt.ite c) → Q a st ra → ∀ vb : St → Res, (∀ st, Q b st (vb st)) →
      Q (mk a b) st (visitTwo mk ra b vb fun a b st => (mk a b, st, true)))
    (choice : ∀ mk eff guard a b st ra state, (mk = Stmt.demonic ∧ eff = reductiveEffect ∧ guard = demonicGuard ∨
        mk = Stmt.angelic ∧ eff = extensiveEffect ∧ guard = angelicGuard) → Q a st ra → ∀ vb : St → Res, (∀ st, Q b st (vb st)) →
      Q (mk a b) st (visitTwo mk ra b vb fun a b st => if shouldSlice f state (eff st.dir) then addBranches state (eff st.dir) guard mk a b st else (mk a b, st, true)))
    (wh : ∀ c s st r, Q s st r → Q (.while c s) st (.while c r.1, r.2))
    (sl : ∀ n s st r, Q s st r → Q (.annot (.slicing n) s) st r)
    (an : ∀ a s st r, Q s st r → Q (.annot a s) st (.annot a r.1, r.2)) (S : Stmt) : ∀ state st, Q S st (visit f state st S) := by
  induction S with
  | seq a b iha ihb => exact fun state st => seqs _ a b st _ (.inl rfl) (iha state st) _ fun st => ihb state st
  | additive a b iha ihb => exact fun state st => seqs _ a b st _ (.inr (.inl rfl)) (iha state st) _ fun st => ihb state st
  | ite c a b iha ihb => exact fun state st => seqs _ a b st _ (.inr (.inr ⟨c, rfl⟩)) (iha state st) _ fun st => ihb state st
  | demonic a b iha ihb => exact fun state st => choice _ _ _ a b st _ state (.inl ⟨rfl, rfl, rfl⟩) (iha state st) _ fun st => ihb state st
  | angelic a b iha ihb => exact fun state st => choice _ _ _ a b st _ state (.inr ⟨rfl, rfl, rfl⟩) (iha state st) _ fun st => ihb state st
  | «while» c s ih => exact fun state st => wh c s st _ (ih state st)
  | annot a s ih =>
    intro state st
    cases a with
    | slicing n => exact sl n s st _ (ih _ st)
    | _ => exact an _ s st _ (ih state st)
  | _ => exact fun state st => leaf _ state st fun _ _ => rfl

/-- The property of expressions is kept by the expressions which the transformation builds. -/
structure Closed (P : {t : Ty} → Expr t → Prop) (V : Var → Prop) : Prop where
  ite : ∀ {t : Ty} (c : Expr .bool) (a b : Expr t), P c → P a → P b → P (.ite c a b)
  var : ∀ x, V x → P (.var x.id : Expr x.ty)
  top : P (Expr.topLit .eureal rfl)
  bot : P (Expr.botLit .eureal rfl)
  one : P oneE

/-- What the traversal keeps. -/
structure Keeps (S : Stmt) (st : St) (r : Res) : Prop where
  grows : Grows st r.2.1
  declared : ∀ s ∈ r.2.1.stmts, s ∈ st.stmts ∨ s.ident ∈ r.2.1.tcx.decls
  core : r.1.Core ↔ S.Core
  dists : S.GoodDists → r.1.GoodDists
  validate : ∀ d, S = .validate d → r.1 = .validate d
  assume : ∀ d, S.IsAssume d → r.1.IsAssume d
  starts : ∀ d, S.StartsAssume d → r.1.StartsAssume d
  guarded : S.SGuarded → r.1.SGuarded
  all : ∀ (P : {t : Ty} → Expr t → Prop) (V : Var → Prop), Closed @P V → (∀ s ∈ r.2.1.stmts, P (.var s.ident : Expr .bool)) → S.All P V → r.1.All P V

theorem Keeps.refl (S : Stmt) (st st' : St) (ok : Bool) (h1 : Grows st st') (h2 : st'.stmts = st.stmts) : Keeps S st (S, st', ok) where
  grows := h1
  declared s hs := .inl (h2 ▸ hs)
  core := Iff.rfl
  dists h := h
  validate d h := h
  assume d h := h
  starts d h := h
  guarded h := h
  all P V _ _ h := h

theorem addSlice_declared (state : Selection) (eff : Effect) (st : St) :
    ∀ s ∈ (addSlice state eff st).2.stmts, s ∈ st.stmts ∨ s.ident ∈ (addSlice state eff st).2.tcx.decls := by
  intro s hs
  rcases List.mem_append.mp hs with hs | hs
  · exact .inl hs
  · obtain rfl := List.mem_singleton.mp hs
    exact .inr (freshToggle_mem st.tcx)

theorem addSlice_var (state : Selection) (eff : Effect) (st : St) :
    ∃ s ∈ (addSlice state eff st).2.stmts, (addSlice state eff st).1 = .var s.ident :=
  ⟨_, List.mem_append_right _ (List.mem_singleton_self _), rfl⟩

theorem topToggle_all {P : {t : Ty} → Expr t → Prop} {V : Var → Prop} (hP : Closed @P V) {e : Expr .eureal} {v : Expr .bool} (he : P e) (hv : P v) (d : Dir) :
    P (topToggle e d v) := by
  cases d with
  | down => exact hP.ite _ _ _ hv he hP.top
  | up => exact hP.ite _ _ _ hv he hP.bot

theorem sliceLeaf_keeps (f state : Selection) (st : St) (S : Stmt) : Keeps S st (sliceLeaf f state st S) := by
  have slice : ∀ (eff : Effect) (T : Expr .bool → Stmt), ((T (addSlice state eff st).1).Core ↔ S.Core) → (S.GoodDists → (T (addSlice state eff st).1).GoodDists) →
      (∀ d, S ≠ .validate d) → (∀ d, S.IsAssume d → (T (addSlice state eff st).1).IsAssume d) → (∀ d, ¬ S.StartsAssume d) →
      (S.SGuarded → (T (addSlice state eff st).1).SGuarded) →
      (∀ (P : {t : Ty} → Expr t → Prop) (V : Var → Prop), Closed @P V → ∀ v, P v → S.All P V → (T v).All P V) →
      Keeps S st (T (addSlice state eff st).1, (addSlice state eff st).2, true) := by
    intro eff T h1 h2 h3 h4 h5 h6 h7
    refine ⟨addSlice_grows _ _ _, addSlice_declared _ _ _, h1, h2, fun d h => absurd h (h3 d), h4, fun d h => absurd h (h5 d), h6, ?_⟩
    intro P V hP hs hS
    refine h7 P V hP _ ?_ hS
    obtain ⟨s, hs', e⟩ := addSlice_var state eff st
    rw [e]
    exact hs s hs'
  unfold sliceLeaf
  split
  case h_1 x e =>
    split
    · exact slice .ambiguous (fun v => .assign x (.ite v e (.var x.id))) Iff.rfl id (fun d h => nomatch h) (fun _ h => h) (fun _ h => h) id
        fun P V hP v hv h => ⟨h.1, hP.ite _ _ _ hv h.2 (hP.var x h.1)⟩
    · exact Keeps.refl _ _ _ _ (Grows.refl _) rfl
  case h_2 x t d =>
    split
    · refine slice .ambiguous (fun v => .ite v (Stmt.block [.sample false x d]) (Stmt.block [])) ?_ ?_ (fun d h => nomatch h) (fun _ h => h) (fun _ h => h) ?_
        fun P V hP v hv h => ⟨hv, ⟨h, trivial⟩, trivial⟩
      · exact ⟨fun h => h.1.1, fun h => ⟨⟨h, trivial⟩, trivial⟩⟩
      · exact fun h => ⟨⟨h, trivial⟩, trivial⟩
      · exact fun _ => ⟨⟨trivial, trivial⟩, trivial⟩
    · exact Keeps.refl _ _ _ _ (Grows.refl _) rfl
  case h_3 x g args =>
    split
    · refine slice .ambiguous (fun v => .ite v (Stmt.block [.call false [x] g args]) (Stmt.block [])) ?_ ?_ (fun d h => nomatch h) (fun _ h => h) (fun _ h => h) ?_
        fun P V hP v hv h => ⟨hv, ⟨h, trivial⟩, trivial⟩
      · exact ⟨fun h => h.1.1, fun h => h.elim⟩
      · exact fun h => ⟨⟨h, trivial⟩, trivial⟩
      · exact fun _ => ⟨⟨trivial, trivial⟩, trivial⟩
    · exact Keeps.refl _ _ _ _ (Grows.refl _) rfl
  case h_4 d e =>
    split
    · exact slice _ (fun v => .assume d (topToggle e d v)) Iff.rfl id (fun d h => nomatch h) (fun _ h => h) (fun _ h => h) id
        fun P V hP v hv h => topToggle_all hP h hv d
    · exact Keeps.refl _ _ _ _ (Grows.refl _) rfl
  case h_5 d e =>
    split
    · exact slice _ (fun v => .assert d (topToggle e d v)) Iff.rfl id (fun d h => nomatch h) (fun _ h => h) (fun _ h => h) id
        fun P V hP v hv h => topToggle_all hP h hv d
    · exact Keeps.refl _ _ _ _ (Grows.refl _) rfl
  case h_6 e =>
    split
    · exact slice _ (fun v => .tick (topToggle e .up v)) Iff.rfl id (fun d h => nomatch h) (fun _ h => h) (fun _ h => h) id
        fun P V hP v hv h => topToggle_all hP h hv .up
    · exact Keeps.refl _ _ _ _ (Grows.refl _) rfl
  case h_7 e =>
    split
    · exact slice _ (fun v => .weigh (.ite v e oneE)) Iff.rfl id (fun d h => nomatch h) (fun _ h => h) (fun _ h => h) id
        fun P V hP v hv h => hP.ite _ _ _ hv h hP.one
    · exact Keeps.refl _ _ _ _ (Grows.refl _) rfl
  case h_8 d =>
    split
    · exact Keeps.refl _ _ _ _ ⟨fun _ h => h, fun _ h => h, fun _ h => .inl h, fun _ h => h⟩ rfl
    · exact Keeps.refl _ _ _ _ (Grows.refl _) rfl
  case h_9 => exact Keeps.refl _ _ _ _ (Grows.refl _) rfl

/-- A statement combining two others. -/
structure Combines (mk : Stmt → Stmt → Stmt) : Prop where
  core : ∀ a b, (mk a b).Core ↔ a.Core ∧ b.Core
  dists : ∀ a b, (mk a b).GoodDists ↔ a.GoodDists ∧ b.GoodDists
  guarded : ∀ a b, a.SGuarded → b.SGuarded → (mk a b).SGuarded
  back : ∀ a b, (mk a b).SGuarded → b.SGuarded ∧ (a.SGuarded ∨ mk = .seq ∧ ∃ d, a = .validate d ∧ b.StartsAssume d)
  starts : ∀ a b d, (mk a b).StartsAssume d ↔ mk = .seq ∧ a.IsAssume d
  shape : ∀ a b, (∀ d, mk a b ≠ .validate d) ∧ ∀ d, ¬ (mk a b).IsAssume d
  all : ∀ (P : {t : Ty} → Expr t → Prop) (V : Var → Prop) a b a' b', (mk a b).All P V → (a.All P V → a'.All P V) → (b.All P V → b'.All P V) → (mk a' b').All P V

theorem combines_seq : Combines .seq where
  core _ _ := Iff.rfl
  dists _ _ := Iff.rfl
  guarded _ _ := Stmt.sguarded_seq
  back a b h := by
    cases a with
    | validate d => exact ⟨h.2, .inr ⟨rfl, d, rfl, h.1⟩⟩
    | _ => exact ⟨h.2, .inl h.1⟩
  starts _ _ _ := ⟨fun h => ⟨rfl, h⟩, fun h => h.2⟩
  shape _ _ := ⟨fun _ h => (nomatch h), fun _ h => h⟩
  all _ _ _ _ _ _ h h1 h2 := ⟨h1 h.1, h2 h.2⟩

theorem ne_seq_of {mk : Stmt → Stmt → Stmt} (h : mk .skip .skip ≠ .seq .skip .skip) : mk ≠ .seq := fun e => h (congrFun (congrFun e _) _)

theorem combines_demonic : Combines .demonic where
  core _ _ := Iff.rfl
  dists _ _ := Iff.rfl
  guarded _ _ h h' := ⟨h, h'⟩
  back _ _ h := ⟨h.2, .inl h.1⟩
  starts _ _ _ := ⟨fun h => h.elim, fun h => (ne_seq_of (mk := .demonic) (fun h => nomatch h) h.1).elim⟩
  shape _ _ := ⟨fun _ h => (nomatch h), fun _ h => h⟩
  all _ _ _ _ _ _ h h1 h2 := ⟨h1 h.1, h2 h.2⟩

theorem combines_angelic : Combines .angelic where
  core _ _ := Iff.rfl
  dists _ _ := Iff.rfl
  guarded _ _ h h' := ⟨h, h'⟩
  back _ _ h := ⟨h.2, .inl h.1⟩
  starts _ _ _ := ⟨fun h => h.elim, fun h => (ne_seq_of (mk := .angelic) (fun h => nomatch h) h.1).elim⟩
  shape _ _ := ⟨fun _ h => (nomatch h), fun _ h => h⟩
  all _ _ _ _ _ _ h h1 h2 := ⟨h1 h.1, h2 h.2⟩

theorem combines_additive : Combines .additive where
  core _ _ := Iff.rfl
  dists _ _ := Iff.rfl
  guarded _ _ h h' := ⟨h, h'⟩
  back _ _ h := ⟨h.2, .inl h.1⟩
  starts _ _ _ := ⟨fun h => h.elim, fun h => (ne_seq_of (mk := .additive) (fun h => nomatch h) h.1).elim⟩
  shape _ _ := ⟨fun _ h => (nomatch h), fun _ h => h⟩
  all _ _ _ _ _ _ h h1 h2 := ⟨h1 h.1, h2 h.2⟩

theorem combines_ite (c : Expr .bool) : Combines (.ite c) where
  core _ _ := Iff.rfl
  dists _ _ := Iff.rfl
  guarded _ _ h h' := ⟨h, h'⟩
  back _ _ h := ⟨h.2, .inl h.1⟩
  starts _ _ _ := ⟨fun h => h.elim, fun h => (ne_seq_of (mk := .ite c) (fun h => nomatch h) h.1).elim⟩
  shape _ _ := ⟨fun _ h => (nomatch h), fun _ h => h⟩
  all _ _ _ _ _ _ h h1 h2 := ⟨h.1, h1 h.2.1, h2 h.2.2⟩

theorem two_keeps {mk : Stmt → Stmt → Stmt} (hm : Combines mk) {a b : Stmt} {st : St} {ra : Res} (ha : Keeps a st ra) {vb : St → Res}
    (hb : ∀ st, Keeps b st (vb st)) {k : Stmt → Stmt → St → Res}
    (hk : ∀ a' b' st', Keeps (mk a' b') st' (k a' b' st')) : Keeps (mk a b) st (visitTwo mk ra b vb k) := by
  have comb : ∀ (a' b' : Stmt) (st' : St) (ok : Bool), Grows st st' → (∀ s ∈ st'.stmts, s ∈ st.stmts ∨ s.ident ∈ st'.tcx.decls) →
      (a'.Core ↔ a.Core) → (b'.Core ↔ b.Core) → (a.GoodDists → a'.GoodDists) → (b.GoodDists → b'.GoodDists) → (∀ d, a = .validate d → a' = .validate d) →
      (∀ d, a.IsAssume d → a'.IsAssume d) → (∀ d, b.StartsAssume d → b'.StartsAssume d) → (a.SGuarded → a'.SGuarded) → (b.SGuarded → b'.SGuarded) →
      (∀ (P : {t : Ty} → Expr t → Prop) (V : Var → Prop), Closed @P V → (∀ s ∈ st'.stmts, P (.var s.ident : Expr .bool)) → (a.All P V → a'.All P V) ∧ (b.All P V → b'.All P V)) →
      Keeps (mk a b) st (mk a' b', st', ok) := by
    intro a' b' st' ok h1 h2 h3 h4 h5 h6 h7 h8 h9 h10 h11 h12
    refine ⟨h1, h2, ?_, ?_, fun d h => absurd h ((hm.shape a b).1 d), fun d h => absurd h ((hm.shape a b).2 d), ?_, ?_, ?_⟩
    · show (mk a' b').Core ↔ _
      rw [hm.core, hm.core, h3, h4]
    · intro h
      have := (hm.dists a b).1 h
      exact (hm.dists a' b').2 ⟨h5 this.1, h6 this.2⟩
    · intro d h
      have := (hm.starts a b d).1 h
      exact (hm.starts a' b' d).2 ⟨this.1, h8 d this.2⟩
    · intro h
      obtain ⟨hb', ha'⟩ := hm.back a b h
      rcases ha' with ha' | ⟨hs, d, ha', hst⟩
      · exact hm.guarded _ _ (h10 ha') (h11 hb')
      · show (mk a' b').SGuarded
        rw [hs, h7 d ha']
        exact ⟨h9 d hst, h11 hb'⟩
    · intro P V hP hs h
      have := h12 P V hP hs
      exact hm.all P V a b a' b' h this.1 this.2
  obtain ⟨a', st1, ok⟩ := ra
  cases ok with
  | false =>
    exact comb a' b st1 false ha.grows ha.declared ha.core Iff.rfl ha.dists id ha.validate ha.assume (fun _ h => h) ha.guarded id
      fun P V hP hs => ⟨ha.all P V hP hs, id⟩
  | true =>
    have hb := hb st1
    unfold visitTwo
    dsimp only
    generalize vb st1 = rb at hb
    obtain ⟨b', st2, ok⟩ := rb
    have hg : Grows st st2 := ha.grows.trans hb.grows
    have hd : ∀ s ∈ st2.stmts, s ∈ st.stmts ∨ s.ident ∈ st2.tcx.decls := by
      intro s hs
      rcases hb.declared s hs with h | h
      · exact (ha.declared s h).imp id (hb.grows.decls _)
      · exact .inr h
    have hc := fun ok => comb a' b' st2 ok hg hd ha.core hb.core ha.dists hb.dists ha.validate ha.assume hb.starts ha.guarded hb.guarded
      fun P V hP hs => ⟨ha.all P V hP fun s h => hs s (hb.grows.stmts s h), hb.all P V hP hs⟩
    cases ok with
    | false => exact hc false
    | true =>
      have hc := hc true
      have hk := hk a' b' st2
      exact ⟨hc.grows.trans hk.grows, fun s hs => (hk.declared s hs).elim (fun h => (hc.declared s h).imp id (hk.grows.decls _)) .inr,
        hk.core.trans hc.core, fun h => hk.dists (hc.dists h), fun d h => hk.validate d (hc.validate d h), fun d h => hk.assume d (hc.assume d h),
        fun d h => hk.starts d (hc.starts d h), fun h => hk.guarded (hc.guarded h),
        fun P V hP hs h => hk.all P V hP hs (hc.all P V hP (fun s h => hs s (hk.grows.stmts s h)) h)⟩

theorem addBranches_keeps {mk : Stmt → Stmt → Stmt} {guard : Dir → Expr .bool → Stmt} (hm : mk = .demonic ∧ guard = demonicGuard ∨ mk = .angelic ∧ guard = angelicGuard)
    (state : Selection) (eff : Effect) (a b : Stmt) (st : St) : Keeps (mk a b) st (addBranches state eff guard mk a b st) := by
  have hg := addBranches_grows state eff guard mk a b st
  have h1 := addSlice_declared state eff st
  have h2 := addSlice_declared state eff (addSlice state eff st).2
  have hd : ∀ s ∈ (addBranches state eff guard mk a b st).2.1.stmts, s ∈ st.stmts ∨ s.ident ∈ (addBranches state eff guard mk a b st).2.1.tcx.decls := by
    intro s hs
    rcases h2 s hs with h | h
    · exact (h1 s h).imp id fun h => (addSlice_grows state eff (addSlice state eff st).2).decls _ h
    · exact .inr h
  obtain ⟨s1, hs1, e1⟩ := addSlice_var state eff st
  obtain ⟨s2, hs2, e2⟩ := addSlice_var state eff (addSlice state eff st).2
  have hs1' := (addSlice_grows state eff (addSlice state eff st).2).stmts s1 hs1
  have hall : ∀ (P : {t : Ty} → Expr t → Prop) (V : Var → Prop), Closed @P V → ∀ v, P v →
      (demonicGuard st.dir v).All P V ∧ (angelicGuard st.dir v).All P V := by
    intro P V hP v hv
    unfold demonicGuard angelicGuard
    cases st.dir with
    | down => exact ⟨hP.ite _ _ _ hv hP.top hP.bot, hP.ite _ _ _ hv hP.top hP.bot⟩
    | up => exact ⟨hP.ite _ _ _ hv hP.bot hP.top, hP.ite _ _ _ hv hP.bot hP.top⟩
  have hgd : ∀ v, ((demonicGuard st.dir v).Core ∧ (demonicGuard st.dir v).GoodDists ∧ (demonicGuard st.dir v).SGuarded) ∧
      (angelicGuard st.dir v).Core ∧ (angelicGuard st.dir v).GoodDists ∧ (angelicGuard st.dir v).SGuarded := by
    intro v
    unfold demonicGuard angelicGuard
    cases st.dir <;> exact ⟨⟨trivial, trivial, trivial⟩, trivial, trivial, trivial⟩
  rcases hm with ⟨rfl, rfl⟩ | ⟨rfl, rfl⟩
  · refine ⟨hg, hd, ?_, ?_, fun _ h => (nomatch h), fun _ h => h.elim, fun _ h => h.elim, ?_, ?_⟩
    · exact ⟨fun h => ⟨h.1.2, h.2.2⟩, fun h => ⟨⟨(hgd _).1.1, h.1⟩, (hgd _).1.1, h.2⟩⟩
    · exact fun h => ⟨⟨(hgd _).1.2.1, h.1⟩, (hgd _).1.2.1, h.2⟩
    · exact fun h => ⟨Stmt.sguarded_seq (hgd _).1.2.2 h.1, Stmt.sguarded_seq (hgd _).1.2.2 h.2⟩
    · exact fun P V hP hs h => ⟨⟨(hall P V hP (addSlice state eff st).1 (show P (addSlice state eff st).1 by rw [e1]; exact hs s1 hs1')).1, h.1⟩, (hall P V hP (addSlice state eff (addSlice state eff st).2).1 (show P (addSlice state eff (addSlice state eff st).2).1 by rw [e2]; exact hs s2 hs2)).1, h.2⟩
  · refine ⟨hg, hd, ?_, ?_, fun _ h => (nomatch h), fun _ h => h.elim, fun _ h => h.elim, ?_, ?_⟩
    · exact ⟨fun h => ⟨h.1.2, h.2.2⟩, fun h => ⟨⟨(hgd _).2.1, h.1⟩, (hgd _).2.1, h.2⟩⟩
    · exact fun h => ⟨⟨(hgd _).2.2.1, h.1⟩, (hgd _).2.2.1, h.2⟩
    · exact fun h => ⟨Stmt.sguarded_seq (hgd _).2.2.2 h.1, Stmt.sguarded_seq (hgd _).2.2.2 h.2⟩
    · exact fun P V hP hs h => ⟨⟨(hall P V hP (addSlice state eff st).1 (show P (addSlice state eff st).1 by rw [e1]; exact hs s1 hs1')).2, h.1⟩, (hall P V hP (addSlice state eff (addSlice state eff st).2).1 (show P (addSlice state eff (addSlice state eff st).2).1 by rw [e2]; exact hs s2 hs2)).2, h.2⟩

theorem visit_keeps (f : Selection) (S : Stmt) (state : Selection) (st : St) : Keeps S st (visit f state st S) := by
  refine visit_induct (f := f) (Q := Keeps) (fun S state st _ => sliceLeaf_keeps f state st S) ?_ ?_ ?_ ?_ ?_ S state st
  · intro mk a b st ra hmk ha vb hb
    have hm : Combines mk := by
      rcases hmk with rfl | rfl | ⟨c, rfl⟩
      · exact combines_seq
      · exact combines_additive
      · exact combines_ite c
    exact two_keeps hm ha hb fun a' b' st' => Keeps.refl _ _ _ _ (Grows.refl _) rfl
  · intro mk eff guard a b st ra state hmk ha vb hb
    have hm : Combines mk := by
      rcases hmk with ⟨rfl, -⟩ | ⟨rfl, -⟩
      · exact combines_demonic
      · exact combines_angelic
    refine two_keeps hm ha hb fun a' b' st' => ?_
    split
    · exact addBranches_keeps (hmk.imp (fun h => ⟨h.1, h.2.2⟩) fun h => ⟨h.1, h.2.2⟩) _ _ _ _ _
    · exact Keeps.refl _ _ _ _ (Grows.refl _) rfl
  · intro c s st r h
    exact ⟨h.grows, h.declared, Iff.rfl, h.dists, fun _ h => (nomatch h), fun _ h => h.elim, fun _ h => h.elim, h.guarded, fun P V _ _ h => h⟩
  · intro n s st r h
    exact ⟨h.grows, h.declared, h.core, h.dists, fun _ h => (nomatch h), h.assume, fun _ h => h.elim, h.guarded, h.all⟩
  · intro a s st r h
    refine ⟨h.grows, h.declared, ?_, h.dists, fun _ h => (nomatch h), ?_, fun _ h => h.elim, h.guarded, h.all⟩
    · cases a with
      | slicing n => exact h.core
      | _ => exact Iff.rfl
    · intro d hd
      cases a with
      | slicing n => exact h.assume d hd
      | _ => exact hd.elim

end Slicing

end Caesar

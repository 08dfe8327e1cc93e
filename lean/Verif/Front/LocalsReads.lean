import Verif.Front.Locals

/-!
# Variables of loop bodies in typed programs

From the scoping of the tree (`LocB`) to the condition about the typed program (`Stmt.LocalsOk`).
-/

namespace Caesar

/-- In every annotated loop, the havocked variables are also assigned to. -/
def Stmt.HavocsAssigned : Stmt → Prop
  | .seq a b => a.HavocsAssigned ∧ b.HavocsAssigned
  | .demonic a b => a.HavocsAssigned ∧ b.HavocsAssigned
  | .angelic a b => a.HavocsAssigned ∧ b.HavocsAssigned
  | .additive a b => a.HavocsAssigned ∧ b.HavocsAssigned
  | .ite _ a b => a.HavocsAssigned ∧ b.HavocsAssigned
  | .while _ s => s.HavocsAssigned
  | .annot _ s => (∀ v, s.Havocs v → v ∈ s.modified) ∧ s.HavocsAssigned
  | _ => True

namespace Front

mutual

/-- Initialised variables are not read before. -/
theorem ReadsS.not_reads {Γ : Ctx} {v : Var} : ∀ {s : RStmt} {S : Stmt}, ReadsS Γ s S → s.Loc (SliceAnn Γ) → v.id ∈ s.inits → ¬ S.Reads v
  | _, _, .seq h, hl, hi => h.not_reads hl hi
  | _, _, .varDecl hx, hl, hi => nomatch hi
  | _, _, .varInit hx h, hl, hi => fun hv => hl (List.mem_singleton.1 hi ▸ (h.free hv).1)
  | _, _, .varSample hx hf h, hl, hi => fun hv => hl (List.mem_singleton.1 hi ▸ (h.free hv).1)
  | _, _, .varCall hx hf h, hl, hi => fun ⟨a, ha, hv⟩ => hl (List.mem_singleton.1 hi ▸ (h.free ha hv).1)
  | _, _, .assign hx h, hl, hi => nomatch hi
  | _, _, .sample hx hf h, hl, hi => nomatch hi
  | _, _, .call _ ht hf h, hl, hi => nomatch hi
  | _, _, .havoc h, hl, hi => nomatch hi
  | _, _, .assert h, hl, hi => nomatch hi
  | _, _, .assume h, hl, hi => nomatch hi
  | _, _, .compare h, hl, hi => nomatch hi
  | _, _, .negate, hl, hi => nomatch hi
  | _, _, .validate, hl, hi => nomatch hi
  | _, _, .tick h, hl, hi => nomatch hi
  | _, _, .weigh h, hl, hi => nomatch hi
  | _, _, .demonic ha hb, hl, hi | _, _, .angelic ha hb, hl, hi | _, _, .additive ha hb, hl, hi => by
    obtain ⟨h1, h2, h3, h4⟩ := hl
    rcases List.mem_append.1 hi with hi | hi
    · rintro (hv | hv)
      · exact ha.not_reads h3 hi hv
      · exact h1 _ hi (hb.readsSome (Stmt.readsSome_of hv)).1
    · rintro (hv | hv)
      · exact h2 _ hi (ha.readsSome (Stmt.readsSome_of hv)).1
      · exact hb.not_reads h4 hi hv
  | _, _, .ite hc ha hb, hl, hi => by
    obtain ⟨h1, h2, h3, h4⟩ := hl
    rcases List.mem_append.1 hi with hi | hi
    · rintro (hv | hv | hv)
      · exact (h1 _ hi).1 (hc.free hv).1
      · exact ha.not_reads h3 hi hv
      · exact (h1 _ hi).2 (hb.readsSome (Stmt.readsSome_of hv)).1
    · rintro (hv | hv | hv)
      · exact (h2 _ hi).1 (hc.free hv).1
      · exact (h2 _ hi).2 (ha.readsSome (Stmt.readsSome_of hv)).1
      · exact hb.not_reads h4 hi hv
  | _, _, .while hc hb, hl, hi => by
    rintro (hv | hv)
    · exact hl.1 _ hi (hc.free hv).1
    · exact hb.not_reads hl.2 hi hv
  | _, _, .annot hf ha h, hl, hi => by
    rintro (hv | hv)
    · obtain ⟨h1, h2, -⟩ := ha.free hv
      exact hl.1 _ hi (fun ⟨j, m, hs⟩ => h1 j m (by rw [hf] at hs; cases hs; rfl)) h2
    · exact h.not_reads hl.2 hi hv
  | _, _, .label, hl, hi => nomatch hi

theorem ReadsB.not_reads {Γ : Ctx} {v : Var} : ∀ {ss : List RStmt} {S : Stmt}, ReadsB Γ ss S → LocB (SliceAnn Γ) ss → v.id ∈ initsB ss →
    ¬ S.Reads v
  | _, _, .nil, hl, hi => nomatch hi
  | s :: ss, _, .cons (S := S) h hs, hl, hi => by
    obtain ⟨h1, h2, h3, h4⟩ := hl
    rcases List.mem_append.1 hi with hi | hi
    · rintro (hv | ⟨hn, hv⟩)
      · exact h.not_reads h3 hi hv
      · obtain ⟨h5, h6⟩ := hs.readsSome (Stmt.readsSome_of hv)
        by_cases hin : v.id ∈ s.inner
        · exact h1 _ hin h5
        · cases h with
          | varInit hx h => exact hn (h6.eq hx.varIn (List.mem_singleton.1 hi))
          | varSample hx hf h => exact hn (h6.eq hx.varIn (List.mem_singleton.1 hi))
          | varCall hx hf h => exact hn (List.mem_singleton.2 (h6.eq hx.varIn (List.mem_singleton.1 hi)))
          | varDecl _ => exact nomatch hi
          | _ => exact hin hi
    · rintro (hv | ⟨-, hv⟩)
      · exact h2 _ hi (h.readsSome (Stmt.readsSome_of hv)).1
      · exact hs.not_reads h4 hi hv

end

mutual

/-- Everything that a statement changes is assigned to, havocked, or initialised where it is declared. -/
theorem ReadsS.touched_cases {Γ : Ctx} {v : Var} : ∀ {s : RStmt} {S : Stmt}, ReadsS Γ s S → S.Touched v →
    v ∈ S.modified ∨ S.Havocs v ∨ v.id ∈ s.inits
  | _, _, .seq h, hv => h.touched_cases hv
  | _, _, .varDecl hx, hv => hv.elim
  | _, _, .varInit hx h, hv => by cases hv; exact .inr (.inr (.head _))
  | _, _, .varSample hx hf h, hv => by cases hv; exact .inr (.inr (.head _))
  | _, _, .varCall hx hf h, hv => by cases List.mem_singleton.1 hv; exact .inr (.inr (.head _))
  | _, _, .assign hx h, hv => .inl (List.mem_singleton.2 hv)
  | _, _, .sample hx hf h, hv => .inl (List.mem_singleton.2 hv)
  | _, _, .call hl ht hf h, hv => .inl hv
  | _, _, .havoc h, hv => .inr (.inl hv)
  | _, _, .assert h, hv => hv.elim
  | _, _, .assume h, hv => hv.elim
  | _, _, .compare h, hv => hv.elim
  | _, _, .negate, hv => hv.elim
  | _, _, .validate, hv => hv.elim
  | _, _, .tick h, hv => hv.elim
  | _, _, .weigh h, hv => hv.elim
  | _, _, .demonic ha hb, hv | _, _, .angelic ha hb, hv | _, _, .additive ha hb, hv | _, _, .ite hc ha hb, hv => by
    simp only [Stmt.modified, Stmt.Havocs, RStmt.inits, List.mem_append]
    rcases hv with hv | hv
    · rcases ha.touched_cases hv with h | h | h
      · exact .inl (.inl h)
      · exact .inr (.inl (.inl h))
      · exact .inr (.inr (.inl h))
    · rcases hb.touched_cases hv with h | h | h
      · exact .inl (.inr h)
      · exact .inr (.inl (.inr h))
      · exact .inr (.inr (.inr h))
  | _, _, .while hc hb, hv => hb.touched_cases hv
  | _, _, .annot hf ha h, hv => h.touched_cases hv
  | _, _, .label, hv => hv.elim

theorem ReadsB.touched_cases {Γ : Ctx} {v : Var} : ∀ {ss : List RStmt} {S : Stmt}, ReadsB Γ ss S → S.Touched v →
    v ∈ S.modified ∨ S.Havocs v ∨ v.id ∈ initsB ss
  | _, _, .nil, hv => hv.elim
  | _, _, .cons h hs, hv => by
    simp only [Stmt.modified, Stmt.Havocs, initsB, List.mem_append]
    rcases hv with hv | hv
    · rcases h.touched_cases hv with h | h | h
      · exact .inl (.inl h)
      · exact .inr (.inl (.inl h))
      · exact .inr (.inr (.inl h))
    · rcases hs.touched_cases hv with h | h | h
      · exact .inl (.inr h)
      · exact .inr (.inl (.inr h))
      · exact .inr (.inr (.inr h))

end

/-- Only loops need more when they are annotated. -/
theorem localsOk_annot {A : Var → Prop} {an : Annot} {S : Stmt} (h : ∀ c s, S ≠ .while c s) (hS : S.LocalsOk A) : (Stmt.annot an S).LocalsOk A := by
  cases S with
  | «while» c s => exact (h c s rfl).elim
  | _ => exact hS

theorem ReadsB.not_while {Γ : Ctx} {ss : List RStmt} {S : Stmt} (h : ReadsB Γ ss S) : ∀ c s, S ≠ .while c s := by
  cases h <;> exact fun _ _ h => nomatch h

/-- What is shown about a statement; the second part is for annotated loops. -/
structure LocalsOf (Γ : Ctx) (s : RStmt) (S : Stmt) : Prop where
  ok : ∀ {A : Var → Prop}, s.Loc (SliceAnn Γ) → S.HavocsAssigned → (∀ v : Var, v.id ∈ s.inner → A v) → S.LocalsOk A
  loop : ∀ C B, S = .while C B → ∃ c b, s = .while c b ∧ Reads Γ c .bool C ∧ ReadsB Γ b B ∧
    ∀ {A : Var → Prop}, LocB (SliceAnn Γ) b → B.HavocsAssigned → (∀ v : Var, v.id ∈ innerB b → A v) → B.LocalsOk A

theorem LocalsOf.triv {Γ : Ctx} {s : RStmt} {S : Stmt} (h : ∀ A, S.LocalsOk A) (hw : ∀ C B, S ≠ .while C B) : LocalsOf Γ s S :=
  ⟨fun _ _ _ => h _, fun C B hs => (hw C B hs).elim⟩

/-- Annotations. -/
theorem LocalsOf.annot {Γ : Ctx} {f : Ident} {k : AnnKind} {args : List RExpr} {an : Annot} {s : RStmt} {S : Stmt}
    (hf : Γ f = some (.annot k)) (ha : ReadsAnn Γ k args an) (h : LocalsOf Γ s S) : LocalsOf Γ (.annot f args s) (.annot an S) := by
  refine ⟨fun {A} hl hh hA => ?_, fun _ _ h => nomatch h⟩
  by_cases hw : ∀ c s, S ≠ .while c s
  · exact localsOk_annot hw (h.ok hl.2 hh.2 fun v hv => hA v (inner_inits (s := s) hv))
  · have key : ∀ v : Var, v.id ∈ s.inits → A v ∧ ¬ an.Reads v := by
      intro v hv
      refine ⟨hA v hv, fun hr => ?_⟩
      obtain ⟨h1, h2, -⟩ := ha.free hr
      exact hl.1 _ hv (fun ⟨j, m, hs⟩ => h1 j m (by rw [hf] at hs; cases hs; rfl)) h2
    simp only [ne_eq, not_forall, not_not] at hw
    obtain ⟨C, B, rfl⟩ := hw
    obtain ⟨c, b, rfl, hc, hb, hB⟩ := h.loop C B rfl
    have key2 : ∀ v : Var, v.id ∈ initsB b → A v ∧ ¬ an.Reads v ∧ ¬ C.Free v ∧ ¬ B.Reads v := fun v hv =>
      ⟨(key v hv).1, (key v hv).2, fun hf => hl.2.1 _ hv (hc.free hf).1, hb.not_reads hl.2.2 hv⟩
    refine ⟨fun v hv => key2 v ?_, hB hl.2.2 hh.2 fun v hv => key2 v (innerB_inits hv)⟩
    rcases hb.touched_cases hv.1 with h | h | h
    · exact (hv.2 h).elim
    · exact (hv.2 (hh.1 v h)).elim
    · exact h

mutual

theorem ReadsS.locals {Γ : Ctx} : ∀ {s : RStmt} {S : Stmt}, ReadsS Γ s S → LocalsOf Γ s S
  | _, _, .seq h => ⟨fun hl hh hA => h.localsOk hl hh fun v hv => hA v (innerB_inits hv), fun C B hs => (h.not_while C B hs).elim⟩
  | _, _, .varDecl hx => .triv (fun _ => trivial) fun _ _ h => nomatch h
  | _, _, .varInit hx h => .triv (fun _ => trivial) fun _ _ h => nomatch h
  | _, _, .varSample hx hf h => .triv (fun _ => trivial) fun _ _ h => nomatch h
  | _, _, .varCall hx hf h => .triv (fun _ => trivial) fun _ _ h => nomatch h
  | _, _, .assign hx h => .triv (fun _ => trivial) fun _ _ h => nomatch h
  | _, _, .sample hx hf h => .triv (fun _ => trivial) fun _ _ h => nomatch h
  | _, _, .call _ ht hf h => .triv (fun _ => trivial) fun _ _ h => nomatch h
  | _, _, .havoc h => .triv (fun _ => trivial) fun _ _ h => nomatch h
  | _, _, .assert h => .triv (fun _ => trivial) fun _ _ h => nomatch h
  | _, _, .assume h => .triv (fun _ => trivial) fun _ _ h => nomatch h
  | _, _, .compare h => .triv (fun _ => trivial) fun _ _ h => nomatch h
  | _, _, .negate => .triv (fun _ => trivial) fun _ _ h => nomatch h
  | _, _, .validate => .triv (fun _ => trivial) fun _ _ h => nomatch h
  | _, _, .tick h => .triv (fun _ => trivial) fun _ _ h => nomatch h
  | _, _, .weigh h => .triv (fun _ => trivial) fun _ _ h => nomatch h
  | _, _, .label => .triv (fun _ => trivial) fun _ _ h => nomatch h
  | _, _, .demonic ha hb | _, _, .angelic ha hb | _, _, .additive ha hb | _, _, .ite hc ha hb =>
    ⟨fun hl hh hA => ⟨ha.localsOk hl.2.2.1 hh.1 fun v hv => hA v (List.mem_append.2 (.inl (innerB_inits hv))),
      hb.localsOk hl.2.2.2 hh.2 fun v hv => hA v (List.mem_append.2 (.inr (innerB_inits hv)))⟩, fun _ _ h => nomatch h⟩
  | _, _, .while hc hb =>
    ⟨fun hl hh hA => hb.localsOk hl.2 hh fun v hv =>
      ⟨hA v (innerB_inits hv), fun hf => hl.1 _ (innerB_inits hv) (hc.free hf).1, hb.not_reads hl.2 (innerB_inits hv)⟩,
      fun C B h => by cases h; exact ⟨_, _, rfl, hc, hb, fun hl hh hA => hb.localsOk hl hh hA⟩⟩
  | _, _, .annot hf ha h => .annot hf ha h.locals

theorem ReadsB.localsOk {Γ : Ctx} : ∀ {ss : List RStmt} {S : Stmt}, ReadsB Γ ss S → ∀ {A : Var → Prop}, LocB (SliceAnn Γ) ss → S.HavocsAssigned →
    (∀ v : Var, v.id ∈ innerB ss → A v) → S.LocalsOk A
  | _, _, .nil => fun _ _ _ => trivial
  | _, _, .cons h hs => fun hl hh hA =>
    ⟨hs.localsOk hl.2.2.2 hh.2 fun v hv => hA v (List.mem_append.2 (.inr hv)),
      h.locals.ok hl.2.2.1 hh.1 fun v hv => ⟨fun hr => hl.1 _ hv (hs.readsSome (Stmt.readsSome_of hr)).1, .inl (hA v (List.mem_append.2 (.inl hv)))⟩⟩

end

end Front
end Caesar

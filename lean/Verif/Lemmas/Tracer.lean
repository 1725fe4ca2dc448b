import Verif.Spec.Tracer
import Verif.Props.Types
/-
Lemmas about proof tracers.
-/
namespace RustSat

@[simp] theorem update_self {α : Type} (f : Nat → α) (k : Nat) (a : α) : update f k a k = a := by simp [update]

theorem update_ne {α : Type} (f : Nat → α) {k x : Nat} (a : α) (h : x ≠ k) : update f k a x = f x := by simp [update, h]

@[simp] theorem Run.ok_bind {α β : Type} (a : α) (f : α → Run β) : (Run.ok a).bind f = f a := rfl

namespace Tracer

theorem fromIpasir_solverInt {l : Lit} (h : l.InRange) : Lit.fromIpasir (solverInt l) = .ok l := by
  obtain ⟨z, h1, _, _, _, _, _, h2⟩ := C01_lit_ipasir_roundtrip l h
  have : z = solverInt l := by
    unfold Lit.toIpasir at h1
    rw [if_pos (show (l.var : Int) + 1 ≤ i32Max from h)] at h1
    exact (Res.ok.inj h1).symm
  rw [← this]
  exact h2

theorem iter_solverInt : ∀ {c : List Lit}, (∀ l ∈ c, l.InRange) → iter (c.map solverInt) = some c
  | [], _ => rfl
  | l :: c, h => by
    show (match Lit.fromIpasir (solverInt l) with | .ok l => (iter (c.map solverInt)).map (l :: ·) | _ => none) = _
    rw [fromIpasir_solverInt (h l List.mem_cons_self), iter_solverInt fun x hx => h x (List.mem_cons_of_mem _ hx)]
    rfl

theorem slice_ofList (l : List Int) : (CVec.ofList l).slice = .ok l := by
  cases l with
  | nil => rfl
  | cons a l => simp [CVec.ofList, CVec.slice]

theorem lit_solverInt {l : Lit} (h : l.InRange) : lit (solverInt l) = .ok l := by
  unfold lit
  rw [fromIpasir_solverInt h]

theorem dispatch_call (p : ProofStep) (h : p.InRange) : dispatch (callback p.call) = .ok p.view := by
  unfold ProofStep.InRange at h
  cases p with
  | reportStatus st id => cases st <;> rfl
  | concludeUnsat t ids =>
    cases t <;> simp [ProofStep.call, callback, dispatch, slice_ofList, ProofStep.view, conclusionInt, conclusion]
  | addAssumption l => simp [ProofStep.call, callback, dispatch, lit_solverInt (h l (by simp [ProofStep.lits])), ProofStep.view]
  | notifyEquivalence a b =>
    simp [ProofStep.call, callback, dispatch, lit_solverInt (h a (by simp [ProofStep.lits])),
      lit_solverInt (h b (by simp [ProofStep.lits])), ProofStep.view]
  | _ => simp [ProofStep.call, callback, dispatch, slice_ofList, ProofStep.view]

theorem read_view (p : ProofStep) (h : p.InRange) : p.view.read = some p := by
  unfold ProofStep.InRange at h
  cases p <;> simp only [ProofStep.view, TEvent.read, clause] <;> first | rfl | (simp only [ProofStep.lits] at h; rw [iter_solverInt h]; rfl)

theorem foldl_assign_other (v : Nat) : ∀ (m : List Lit) (a : Assignment), (∀ l ∈ m, l.var ≠ v) →
    (m.foldl Assignment.assignLit a).varValue v = a.varValue v
  | [], _, _ => rfl
  | l :: m, a, h => by
    rw [List.foldl_cons, foldl_assign_other v m _ fun x hx => h x (List.mem_cons_of_mem _ hx), Assignment.varValue_assignLit,
      if_neg fun e => h l List.mem_cons_self e.symm]

theorem foldl_assign_mem : ∀ (m : List Lit) (a : Assignment), (∀ l ∈ m, l.neg ∉ m) → ∀ l ∈ m,
    (m.foldl Assignment.assignLit a).litValue l = .true
  | x :: m, a, h, l, hl => by
    rw [List.foldl_cons]
    by_cases hm : l ∈ m
    · exact foldl_assign_mem m _ (fun y hy hn => h y (List.mem_cons_of_mem _ hy) (List.mem_cons_of_mem _ hn)) l hm
    · obtain rfl : l = x := (List.mem_cons.1 hl).resolve_right hm
      have : ∀ y ∈ m, y.var ≠ l.var := by
        intro y hy e
        rcases Lit.eq_or_eq_neg_of_var e with e | e
        · exact hm (e ▸ hy)
        · exact h l hl (List.mem_cons_of_mem _ (e ▸ hy))
      have h1 := Assignment.litValue_assignLit_self a l
      unfold Assignment.litValue at h1 ⊢
      rw [foldl_assign_other l.var m _ this]
      exact h1

end Tracer

namespace TraceWorld
variable {T : Type}

theorem deleteAll_ok : ∀ (cs : List Nat) (w : TraceWorld T), cs.Nodup → (∀ c ∈ cs, (w.classes c).isSome) →
    w.deleteAll cs = .ok { w with classes := fun c => if c ∈ cs then none else w.classes c }
  | [], w, _, _ => by simp [deleteAll]
  | c :: cs, w, hn, h => by
    obtain ⟨d, hd⟩ := Option.isSome_iff_exists.1 (h c List.mem_cons_self)
    rw [List.nodup_cons] at hn
    show (w.deleteClass c).bind (fun w => w.deleteAll cs) = _
    unfold deleteClass
    rw [hd]
    show deleteAll _ cs = _
    rw [deleteAll_ok cs _ hn.2]
    · congr 2
      funext x
      by_cases hx : x = c
      · subst hx; simp
      · simp [update, hx]
    · intro x hx
      have : x ≠ c := fun e => hn.1 (e ▸ hx)
      show (update w.classes c none x).isSome
      rw [update_ne _ _ this]
      exact h x (List.mem_cons_of_mem _ hx)

variable [TraceProof T]

/-- The box with the tracer of an object. -/
def target (w : TraceWorld T) (c : Nat) : Option Nat := (w.classes c).bind w.traits

theorem deliverAll_ok {e : SEvent} {te : TEvent} (hd : Tracer.dispatch (Tracer.callback e) = .ok te) :
    ∀ (cs : List Nat) (w : TraceWorld T), (cs.map w.target).Nodup →
    (∀ c ∈ cs, ∃ d b t, w.classes c = some d ∧ w.traits d = some b ∧ w.boxes b = some t) →
    w.deliverAll e cs = .ok { w with
      boxes := fun b => if some b ∈ cs.map w.target then (w.boxes b).map (TraceProof.react · te) else w.boxes b }
  | [], w, _, _ => by simp [deliverAll]
  | c :: cs, w, hn, h => by
    obtain ⟨d, b, t, h1, h2, h3⟩ := h c List.mem_cons_self
    have ht : w.target c = some b := by unfold target; rw [h1]; exact h2
    rw [List.map_cons, List.nodup_cons, ht] at hn
    show (w.deliver e c).bind (fun w => w.deliverAll e cs) = _
    have hdel : w.deliver e c = .ok { w with boxes := update w.boxes b (some (TraceProof.react t te)) } := by
      unfold deliver
      simp only [h1, h2, h3, hd]
      rfl
    rw [hdel]
    show deliverAll _ e cs = _
    have ih := deliverAll_ok hd cs { w with boxes := update w.boxes b (some (TraceProof.react t te)) } hn.2
    rw [ih]
    · congr 2
      funext x
      show (if some x ∈ cs.map w.target then _ else _) = _
      by_cases hx : x = b
      · subst hx
        simp [hn.1, ht, h3]
      · have : some x ≠ some b := fun e => hx (Option.some.inj e)
        simp [update, hx, ht]
    · intro x hx
      obtain ⟨d', b', t', g1, g2, g3⟩ := h x (List.mem_cons_of_mem _ hx)
      have : b' ≠ b := by
        rintro rfl
        refine hn.1 (List.mem_map.2 ⟨x, hx, ?_⟩)
        unfold target; rw [g1]; exact g2
      exact ⟨d', b', t', g1, g2, by show update _ _ _ _ = _; rw [update_ne _ _ this]; exact g3⟩

/-- The memory is as the specification says. -/
structure Rel (w : TraceWorld T) (a : TraceSpec T) : Prop where
  sol : ∀ s, (w.solvers s).map (·.configuring) = a.solvers s
  hnone : ∀ k, a.tracers k = none → w.handles k = none
  hsome : ∀ k t, a.tracers k = some t → ∃ h, w.handles k = some h ∧ w.boxes h.tracer = some t.value ∧
    w.traits h.traitPtr = some h.tracer ∧ h.tracer < w.next ∧ h.traitPtr < w.next ∧ h.cClass < w.next
  conn : ∀ k t h s, a.tracers k = some t → w.handles k = some h → t.solver = some s →
    w.classes h.cClass = some h.traitPtr ∧ ∃ sv, w.solvers s = some sv ∧ h.cClass ∈ sv.owned
  owned : ∀ s sv c, w.solvers s = some sv → c ∈ sv.owned →
    ∃ k t h, a.tracers k = some t ∧ w.handles k = some h ∧ t.solver = some s ∧ h.cClass = c
  nodup : ∀ s sv, w.solvers s = some sv → sv.owned.Nodup ∧ sv.notified = sv.owned
  inj : ∀ k k' h h', w.handles k = some h → w.handles k' = some h' → k ≠ k' →
    h.tracer ≠ h'.tracer ∧ h.traitPtr ≠ h'.traitPtr ∧ h.cClass ≠ h'.cClass
  ref : ∀ s k, a.refs s = some k → ∃ h, w.handles k = some h ∧ w.refs s = some h.tracer
  liveB : ∀ b t, w.boxes b = some t → ∃ k h, w.handles k = some h ∧ h.tracer = b
  liveT : ∀ d b, w.traits d = some b → ∃ k h, w.handles k = some h ∧ h.traitPtr = d
  liveC : ∀ c d, w.classes c = some d → ∃ s sv, w.solvers s = some sv ∧ c ∈ sv.owned

variable {w : TraceWorld T} {a : TraceSpec T}

theorem Rel.handle (r : Rel w a) {k : Nat} {h : TracerHandle} (hk : w.handles k = some h) :
    ∃ t, a.tracers k = some t ∧ w.boxes h.tracer = some t.value ∧ w.traits h.traitPtr = some h.tracer ∧
      h.tracer < w.next ∧ h.traitPtr < w.next ∧ h.cClass < w.next := by
  cases ht : a.tracers k with
  | none => rw [r.hnone k ht] at hk; cases hk
  | some t =>
    obtain ⟨h', g, g'⟩ := r.hsome k t ht
    rw [hk] at g; cases g
    exact ⟨t, rfl, g'⟩

theorem Rel.solver (r : Rel w a) {s : Nat} (h : a.solvers s ≠ none) : ∃ sv, w.solvers s = some sv := by
  have := r.sol s
  cases hs : w.solvers s with
  | none => rw [hs] at this; exact absurd this.symm h
  | some sv => exact ⟨sv, rfl⟩

theorem refs_clear {s : Nat} {a : TraceSpec T} {k s' : Nat} (h : update a.refs s none s' = some k) : s' ≠ s ∧ a.refs s' = some k := by
  by_cases e : s' = s
  · subst e; rw [update_self] at h; cases h
  · rw [update_ne _ _ e] at h; exact ⟨e, h⟩

theorem Rel.ref_clear (r : Rel w a) {s s' k : Nat} (h : update a.refs s none s' = some k) :
    ∃ h, w.handles k = some h ∧ update w.refs s none s' = some h.tracer := by
  obtain ⟨e, h⟩ := refs_clear h
  obtain ⟨x, g1, g2⟩ := r.ref s' k h
  exact ⟨x, g1, by rw [update_ne _ _ e]; exact g2⟩

theorem Rel.newSolver (r : Rel w a) {s : Nat} (h : a.solvers s = none) :
    Rel (w.newSolver s) (a.step (.newSolver s)).2 := by
  have hs : w.solvers s = none := by
    have := r.sol s
    rw [h] at this
    simpa using this
  have hw : w.newSolver s = { w with solvers := update w.solvers s (some {}), refs := update w.refs s none } := by
    unfold TraceWorld.newSolver; rw [hs]
  rw [hw]
  refine ⟨fun s' => ?_, r.hnone, r.hsome, fun k t x s' h1 h2 h3 => ?_, fun s' sv c h1 h2 => ?_, fun s' sv h1 => ?_, r.inj,
    fun s' k hk => r.ref_clear hk, r.liveB, r.liveT, fun c d h1 => ?_⟩
  rotate_left 4
  · obtain ⟨s', sv, g1, g2⟩ := r.liveC c d h1
    have e : s' ≠ s := by rintro rfl; rw [hs] at g1; cases g1
    exact ⟨s', sv, by show update _ _ _ _ = _; rw [update_ne _ _ e]; exact g1, g2⟩
  · show (update w.solvers s (some {}) s').map _ = update a.solvers s (some true) s'
    by_cases e : s' = s
    · subst e; simp
    · rw [update_ne _ _ e, update_ne _ _ e]; exact r.sol s'
  · obtain ⟨g1, sv, g2, g3⟩ := r.conn k t x s' h1 h2 h3
    refine ⟨g1, sv, ?_, g3⟩
    have e : s' ≠ s := by rintro rfl; rw [hs] at g2; cases g2
    show update _ _ _ _ = _
    rw [update_ne _ _ e]; exact g2
  · by_cases e : s' = s
    · subst e
      replace h1 : update w.solvers s' (some {}) s' = some sv := h1
      rw [update_self] at h1; cases h1; cases h2
    · replace h1 : update w.solvers s (some {}) s' = some sv := h1
      rw [update_ne _ _ e] at h1
      exact r.owned s' sv c h1 h2
  · replace h1 : update w.solvers s (some {}) s' = some sv := h1
    by_cases e : s' = s
    · subst e
      rw [update_self] at h1; cases h1
      exact ⟨List.nodup_nil, rfl⟩
    · rw [update_ne _ _ e] at h1
      exact r.nodup s' sv h1

theorem Rel.leave (r : Rel w a) {s : Nat} (h : a.solvers s ≠ none) :
    Rel (w.leaveConfiguring s) (a.step (.leaveConfiguring s)).2 := by
  obtain ⟨sv0, hs⟩ := r.solver h
  have hw : w.leaveConfiguring s =
      { w with solvers := update w.solvers s (some { sv0 with configuring := false }), refs := update w.refs s none } := by
    unfold TraceWorld.leaveConfiguring; rw [hs]
  rw [hw]
  have key : ∀ s' sv, update w.solvers s (some { sv0 with configuring := false }) s' = some sv →
      ∃ sv', w.solvers s' = some sv' ∧ sv'.owned = sv.owned ∧ sv'.notified = sv.notified := by
    intro s' sv h1
    by_cases e : s' = s
    · subst e; rw [update_self] at h1; cases h1; exact ⟨sv0, hs, rfl, rfl⟩
    · rw [update_ne _ _ e] at h1; exact ⟨sv, h1, rfl, rfl⟩
  refine ⟨fun s' => ?_, r.hnone, r.hsome, fun k t x s' h1 h2 h3 => ?_, fun s' sv c h1 h2 => ?_, fun s' sv h1 => ?_, r.inj,
    fun s' k hk => r.ref_clear hk, r.liveB, r.liveT, fun c d h1 => ?_⟩
  rotate_left 4
  · obtain ⟨s', sv, g1, g2⟩ := r.liveC c d h1
    by_cases e : s' = s
    · subst e
      rw [hs] at g1; cases g1
      exact ⟨s', _, update_self _ _ _, g2⟩
    · exact ⟨s', sv, by show update _ _ _ _ = _; rw [update_ne _ _ e]; exact g1, g2⟩
  · show (update w.solvers s _ s').map _ = update a.solvers s (some false) s'
    by_cases e : s' = s
    · subst e; simp
    · rw [update_ne _ _ e, update_ne _ _ e]; exact r.sol s'
  · obtain ⟨g1, sv, g2, g3⟩ := r.conn k t x s' h1 h2 h3
    refine ⟨g1, ?_⟩
    by_cases e : s' = s
    · subst e
      rw [hs] at g2; cases g2
      exact ⟨{ sv0 with configuring := false }, by show update _ _ _ _ = _; rw [update_self], g3⟩
    · exact ⟨sv, by show update _ _ _ _ = _; rw [update_ne _ _ e]; exact g2, g3⟩
  · obtain ⟨sv', g1, g2, _⟩ := key s' sv h1
    exact r.owned s' sv' c g1 (g2 ▸ h2)
  · obtain ⟨sv', g1, g2, g3⟩ := key s' sv h1
    rw [← g2, ← g3]
    exact r.nodup s' sv' g1

theorem Rel.connect (r : Rel w a) {s k : Nat} (t : T) (h : a.solvers s = some true) (hk : a.tracers k = none) :
    ∃ w', w.connect s k t = .ok w' ∧ Rel w' (a.step (.connect s k t)).2 := by
  have hk' := r.hnone k hk
  obtain ⟨sv0, hs⟩ := r.solver (s := s) (by rw [h]; exact Option.some_ne_none _)
  have hcf : sv0.configuring = true := by
    have := r.sol s
    rw [hs, h] at this
    exact Option.some.inj this
  have hw : w.connect s k t = .ok { w with
        next := w.next + 3
        boxes := update w.boxes w.next (some t)
        traits := update w.traits (w.next + 1) (some w.next)
        classes := update w.classes (w.next + 2) (some (w.next + 1))
        solvers := update w.solvers s
          (some { sv0 with owned := sv0.owned ++ [w.next + 2], notified := sv0.notified ++ [w.next + 2] })
        handles := update w.handles k (some ⟨w.next + 2, w.next, w.next + 1⟩)
        refs := update w.refs s none } := by
    unfold TraceWorld.connect; simp only [hs, hk', hcf, if_true]
  rw [hw]
  refine ⟨_, rfl, ?_⟩
  have hnew : ∀ k' h', w.handles k' = some h' → k' ≠ k := fun k' h' g e => by subst e; rw [hk'] at g; cases g
  refine ⟨fun s' => ?_, fun k' h1 => ?_, fun k' t' h1 => ?_, fun k' t' x s' h1 h2 h3 => ?_, fun s' sv c h1 h2 => ?_,
    fun s' sv h1 => ?_, fun k1 k2 x1 x2 h1 h2 hne => ?_, fun s' k' h1 => ?_, fun b t' h1 => ?_, fun d b h1 => ?_, fun c d h1 => ?_⟩
  rotate_left 8
  · replace h1 : update w.boxes w.next _ b = some t' := h1
    by_cases e : b = w.next
    · exact ⟨k, _, update_self _ _ _, e.symm⟩
    · rw [update_ne _ _ e] at h1
      obtain ⟨k1, x1, g1, g2⟩ := r.liveB b t' h1
      exact ⟨k1, x1, by show update _ _ _ _ = _; rw [update_ne _ _ (hnew k1 x1 g1)]; exact g1, g2⟩
  · replace h1 : update w.traits (w.next + 1) _ d = some b := h1
    by_cases e : d = w.next + 1
    · exact ⟨k, _, update_self _ _ _, e.symm⟩
    · rw [update_ne _ _ e] at h1
      obtain ⟨k1, x1, g1, g2⟩ := r.liveT d b h1
      exact ⟨k1, x1, by show update _ _ _ _ = _; rw [update_ne _ _ (hnew k1 x1 g1)]; exact g1, g2⟩
  · replace h1 : update w.classes (w.next + 2) _ c = some d := h1
    by_cases e : c = w.next + 2
    · exact ⟨s, _, update_self _ _ _, List.mem_append_right _ (List.mem_singleton.2 e)⟩
    · rw [update_ne _ _ e] at h1
      obtain ⟨s', sv, g1, g2⟩ := r.liveC c d h1
      by_cases es : s' = s
      · subst es
        rw [hs] at g1; cases g1
        exact ⟨s', _, update_self _ _ _, List.mem_append_left _ g2⟩
      · exact ⟨s', sv, by show update _ _ _ _ = _; rw [update_ne _ _ es]; exact g1, g2⟩
  · show (update w.solvers s _ s').map _ = a.solvers s'
    by_cases e : s' = s
    · subst e; rw [update_self, h]; simp [hcf]
    · rw [update_ne _ _ e]; exact r.sol s'
  · replace h1 : update a.tracers k _ k' = none := h1
    by_cases e : k' = k
    · subst e; rw [update_self] at h1; cases h1
    · rw [update_ne _ _ e] at h1
      show update w.handles k _ k' = none
      rw [update_ne _ _ e]; exact r.hnone k' h1
  · replace h1 : update a.tracers k _ k' = some t' := h1
    by_cases e : k' = k
    · subst e; rw [update_self] at h1; cases h1
      refine ⟨_, update_self _ _ _, update_self _ _ _, update_self _ _ _, ?_, ?_, ?_⟩
      all_goals show _ < w.next + 3
      all_goals simp only
      all_goals omega
    · rw [update_ne _ _ e] at h1
      obtain ⟨x, g1, g2, g3, g4, g5, g6⟩ := r.hsome k' t' h1
      refine ⟨x, ?_, ?_, ?_, ?_, ?_, ?_⟩
      · show update w.handles k _ k' = _; rw [update_ne _ _ e]; exact g1
      · show update w.boxes w.next _ _ = _; rw [update_ne _ _ (by omega)]; exact g2
      · show update w.traits (w.next + 1) _ _ = _; rw [update_ne _ _ (by omega)]; exact g3
      all_goals show _ < w.next + 3
      all_goals omega
  · replace h1 : update a.tracers k _ k' = some t' := h1
    replace h2 : update w.handles k _ k' = some x := h2
    by_cases e : k' = k
    · subst e; rw [update_self] at h1 h2; cases h1; cases h2; cases h3
      exact ⟨update_self _ _ _, _, update_self _ _ _, List.mem_append_right _ List.mem_cons_self⟩
    · rw [update_ne _ _ e] at h1 h2
      obtain ⟨g1, sv, g2, g3⟩ := r.conn k' t' x s' h1 h2 h3
      obtain ⟨_, _, _, _, _, _, g6⟩ := r.handle h2
      refine ⟨by show update w.classes _ _ _ = _; rw [update_ne _ _ (by omega)]; exact g1, ?_⟩
      by_cases es : s' = s
      · subst es
        rw [hs] at g2; cases g2
        exact ⟨_, update_self _ _ _, List.mem_append_left _ g3⟩
      · exact ⟨sv, by show update w.solvers s _ s' = _; rw [update_ne _ _ es]; exact g2, g3⟩
  · replace h1 : update w.solvers s _ s' = some sv := h1
    have old : (∃ k1 t1 x1, a.tracers k1 = some t1 ∧ w.handles k1 = some x1 ∧ t1.solver = some s' ∧ x1.cClass = c) → ∃ k1 t1 x1,
        update a.tracers k (some ⟨t, some s⟩) k1 = some t1 ∧
        update w.handles k (some ⟨w.next + 2, w.next, w.next + 1⟩) k1 = some x1 ∧ t1.solver = some s' ∧ x1.cClass = c := by
      rintro ⟨k1, t1, x1, g1, g2, g3⟩
      have e := hnew k1 x1 g2
      exact ⟨k1, t1, x1, by rw [update_ne _ _ e]; exact g1, by rw [update_ne _ _ e]; exact g2, g3⟩
    by_cases e : s' = s
    · subst e; rw [update_self] at h1; cases h1
      rcases List.mem_append.1 h2 with h2 | h2
      · exact old (r.owned s' sv0 c hs h2)
      · rw [List.mem_singleton] at h2; subst h2
        exact ⟨k, _, _, update_self _ _ _, update_self _ _ _, rfl, rfl⟩
    · rw [update_ne _ _ e] at h1
      exact old (r.owned s' sv c h1 h2)
  · replace h1 : update w.solvers s _ s' = some sv := h1
    by_cases e : s' = s
    · subst e; rw [update_self] at h1; cases h1
      obtain ⟨g1, g2⟩ := r.nodup s' sv0 hs
      refine ⟨?_, by show sv0.notified ++ _ = sv0.owned ++ _; rw [g2]⟩
      show (sv0.owned ++ [w.next + 2]).Nodup
      rw [List.nodup_append]
      refine ⟨g1, by simp, fun x hx y hy => ?_⟩
      rw [List.mem_singleton] at hy; subst hy
      obtain ⟨k1, t1, x1, _, g3, _, g4⟩ := r.owned s' sv0 x hs hx
      obtain ⟨_, _, _, _, _, _, g6⟩ := r.handle g3
      omega
    · rw [update_ne _ _ e] at h1
      exact r.nodup s' sv h1
  · replace h1 : update w.handles k _ k1 = some x1 := h1
    replace h2 : update w.handles k _ k2 = some x2 := h2
    by_cases e1 : k1 = k
    · have e2 : k2 ≠ k := fun e => hne (e1.trans e.symm)
      subst e1
      rw [update_self] at h1; cases h1
      rw [update_ne _ _ e2] at h2
      obtain ⟨_, _, _, _, g4, g5, g6⟩ := r.handle h2
      simp only; omega
    · rw [update_ne _ _ e1] at h1
      by_cases e2 : k2 = k
      · subst e2
        rw [update_self] at h2; cases h2
        obtain ⟨_, _, _, _, g4, g5, g6⟩ := r.handle h1
        simp only; omega
      · rw [update_ne _ _ e2] at h2
        exact r.inj k1 k2 x1 x2 h1 h2 hne
  · obtain ⟨x, g1, g2⟩ := r.ref_clear (s := s) h1
    exact ⟨x, by show update w.handles k _ k' = _; rw [update_ne _ _ (hnew k' x g1)]; exact g1, g2⟩

/-- Memory changes only at the addresses of one handle. -/
theorem Rel.remove (r : Rel w a) {k : Nat} {h : TracerHandle} (hk : w.handles k = some h) {w' : TraceWorld T} {refs : Nat → Option Nat}
    (hn : w'.next = w.next) (hb : ∀ x, x ≠ h.tracer → w'.boxes x = w.boxes x) (ht : ∀ x, x ≠ h.traitPtr → w'.traits x = w.traits x)
    (hc : ∀ x, x ≠ h.cClass → w'.classes x = w.classes x) (hh : w'.handles = update w.handles k none)
    (hsol : ∀ s, (w'.solvers s).map (·.configuring) = a.solvers s)
    (hfwd : ∀ s sv c, w.solvers s = some sv → c ∈ sv.owned → c ≠ h.cClass → ∃ sv', w'.solvers s = some sv' ∧ c ∈ sv'.owned)
    (hbwd : ∀ s sv', w'.solvers s = some sv' → ∃ sv, w.solvers s = some sv ∧ (∀ c ∈ sv'.owned, c ∈ sv.owned ∧ c ≠ h.cClass) ∧
      sv'.owned.Nodup ∧ sv'.notified = sv'.owned)
    (href : ∀ s j, refs s = some j → j ≠ k ∧ a.refs s = some j ∧ w'.refs s = w.refs s)
    (hb0 : w'.boxes h.tracer = none) (ht0 : w'.traits h.traitPtr = none)
    (hc0 : ∀ c d, w'.classes c = some d → w.classes c = some d ∧ ∀ s sv, w.solvers s = some sv → c ∈ sv.owned → c ≠ h.cClass) :
    Rel w' { a with tracers := update a.tracers k none, refs := refs } := by
  have keep : ∀ k' x, w'.handles k' = some x → k' ≠ k ∧ w.handles k' = some x := by
    intro k' x hx
    rw [hh] at hx
    by_cases e : k' = k
    · subst e; rw [update_self] at hx; cases hx
    · rw [update_ne _ _ e] at hx; exact ⟨e, hx⟩
  have put : ∀ k' x, k' ≠ k → w.handles k' = some x → w'.handles k' = some x := by
    intro k' x e hx
    rw [hh, update_ne _ _ e]; exact hx
  have keepT : ∀ k' t, update a.tracers k none k' = some t → k' ≠ k ∧ a.tracers k' = some t := by
    intro k' t hx
    by_cases e : k' = k
    · subst e; rw [update_self] at hx; cases hx
    · rw [update_ne _ _ e] at hx; exact ⟨e, hx⟩
  refine ⟨hsol, fun k' h1 => ?_, fun k' t' h1 => ?_, fun k' t' x s' h1 h2 h3 => ?_, fun s' sv c h1 h2 => ?_,
    fun s' sv h1 => ?_, fun k1 k2 x1 x2 h1 h2 hne => ?_, fun s' k' h1 => ?_, fun b t' h1 => ?_, fun d b h1 => ?_, fun c d h1 => ?_⟩
  rotate_left 7
  · have e : b ≠ h.tracer := by rintro rfl; rw [hb0] at h1; cases h1
    rw [hb _ e] at h1
    obtain ⟨k1, x1, g1, g2⟩ := r.liveB b t' h1
    exact ⟨k1, x1, put k1 x1 (by rintro rfl; rw [hk] at g1; cases g1; exact e g2.symm) g1, g2⟩
  · have e : d ≠ h.traitPtr := by rintro rfl; rw [ht0] at h1; cases h1
    rw [ht _ e] at h1
    obtain ⟨k1, x1, g1, g2⟩ := r.liveT d b h1
    exact ⟨k1, x1, put k1 x1 (by rintro rfl; rw [hk] at g1; cases g1; exact e g2.symm) g1, g2⟩
  · obtain ⟨h1, h2⟩ := hc0 c d h1
    obtain ⟨s', sv, g1, g2⟩ := r.liveC c d h1
    obtain ⟨sv', i1, i2⟩ := hfwd s' sv c g1 g2 (h2 s' sv g1 g2)
    exact ⟨s', sv', i1, i2⟩
  · rw [hh]
    by_cases e : k' = k
    · subst e; exact update_self _ _ _
    · replace h1 : update a.tracers k none k' = none := h1
      rw [update_ne _ _ e] at h1
      rw [update_ne _ _ e]; exact r.hnone k' h1
  · obtain ⟨e, h1⟩ := keepT k' t' h1
    obtain ⟨x, g1, g2, g3, g4⟩ := r.hsome k' t' h1
    obtain ⟨i1, i2, _⟩ := r.inj k' k x h g1 hk e
    exact ⟨x, put k' x e g1, by rw [hb _ i1]; exact g2, by rw [ht _ i2]; exact g3, by rw [hn]; exact g4⟩
  · obtain ⟨e, h1⟩ := keepT k' t' h1
    obtain ⟨_, h2⟩ := keep k' x h2
    obtain ⟨_, _, i3⟩ := r.inj k' k x h h2 hk e
    obtain ⟨g1, sv, g2, g3⟩ := r.conn k' t' x s' h1 h2 h3
    exact ⟨by rw [hc _ i3]; exact g1, hfwd s' sv _ g2 g3 i3⟩
  · obtain ⟨sv0, g1, g2, _⟩ := hbwd s' sv h1
    obtain ⟨g3, g4⟩ := g2 c h2
    obtain ⟨k1, t1, x1, i1, i2, i3, i4⟩ := r.owned s' sv0 c g1 g3
    have e : k1 ≠ k := by
      rintro rfl
      rw [hk] at i2; cases i2
      exact g4 i4.symm
    exact ⟨k1, t1, x1, by show update _ _ _ _ = _; rw [update_ne _ _ e]; exact i1, put k1 x1 e i2, i3, i4⟩
  · obtain ⟨_, _, _, g⟩ := hbwd s' sv h1
    exact g
  · exact r.inj k1 k2 x1 x2 (keep k1 x1 h1).2 (keep k2 x2 h2).2 hne
  · obtain ⟨e, g1, g2⟩ := href s' k' h1
    obtain ⟨x, i1, i2⟩ := r.ref s' k' g1
    exact ⟨x, put k' x e i1, by rw [g2]; exact i2⟩

theorem forget_some {refs : Nat → Option Nat} {k s j : Nat} (h : TraceSpec.forget refs k s = some j) : j ≠ k ∧ refs s = some j := by
  unfold TraceSpec.forget at h
  by_cases e : refs s = some k
  · rw [if_pos e] at h; cases h
  · rw [if_neg e] at h
    exact ⟨fun e' => e (e' ▸ h), h⟩

theorem Rel.disconnect (r : Rel w a) {s k : Nat} {t : Traced T} (hs : a.solvers s ≠ none) (hk : a.tracers k = some t)
    (ht : t.solver = some s) :
    ∃ w', w.disconnect s k = .ok (some t.value, w') ∧ Rel w' (a.step (.disconnect s k)).2 := by
  obtain ⟨h, g1, g2, g3, _⟩ := r.hsome k t hk
  obtain ⟨c1, sv, c2, c3⟩ := r.conn k t h s hk g1 ht
  obtain ⟨n1, n2⟩ := r.nodup s sv c2
  have hct : sv.owned.contains h.cClass = true := List.contains_iff_mem.2 c3
  have hw : w.disconnect s k = .ok (some t.value, { w with
      handles := update w.handles k none
      refs := update w.refs s none
      solvers := update w.solvers s
        (some { sv with owned := sv.owned.erase h.cClass, notified := sv.notified.filter (· ≠ h.cClass) })
      classes := update w.classes h.cClass none
      traits := update w.traits h.traitPtr none
      boxes := update w.boxes h.tracer none }) := by
    unfold TraceWorld.disconnect
    simp only [c2, g1]
    unfold ccadicalDisconnect
    rw [if_pos hct]
    unfold deleteClass
    simp only [c1, Run.ok_bind, if_true]
    unfold freeTrait takeTracer
    simp only [g3, g2, Run.ok_bind]
  refine ⟨_, hw, ?_⟩
  refine r.remove g1 rfl (fun x hx => update_ne _ _ hx) (fun x hx => update_ne _ _ hx) (fun x hx => update_ne _ _ hx) rfl
    (fun s' => ?_) (fun s' sv' c h1 h2 h3 => ?_) (fun s' sv' h1 => ?_) (fun s' j h1 => ?_) (update_self _ _ _) (update_self _ _ _)
    fun c d h1 => ?_
  rotate_left 4
  · replace h1 : update w.classes h.cClass none c = some d := h1
    by_cases e : c = h.cClass
    · subst e; rw [update_self] at h1; cases h1
    · rw [update_ne _ _ e] at h1; exact ⟨h1, fun _ _ _ _ => e⟩
  · show (update w.solvers s _ s').map _ = a.solvers s'
    rw [← r.sol s']
    by_cases e : s' = s
    · subst e; rw [update_self, c2]; rfl
    · rw [update_ne _ _ e]
  · show ∃ sv', update w.solvers s _ s' = some sv' ∧ _
    by_cases e : s' = s
    · subst e
      rw [c2] at h1; cases h1
      exact ⟨_, update_self _ _ _, (List.mem_erase_of_ne h3).2 h2⟩
    · exact ⟨sv', by rw [update_ne _ _ e]; exact h1, h2⟩
  · replace h1 : update w.solvers s _ s' = some sv' := h1
    by_cases e : s' = s
    · subst e
      rw [update_self] at h1; cases h1
      refine ⟨sv, c2, fun c hc => ?_, n1.erase _, ?_⟩
      · have := (List.Nodup.mem_erase_iff n1).1 hc
        exact ⟨this.2, this.1⟩
      · show sv.notified.filter _ = sv.owned.erase _
        rw [n2, List.Nodup.erase_eq_filter n1]
        congr 1
        funext x
        by_cases hx : x = h.cClass <;> simp [hx]
    · rw [update_ne _ _ e] at h1
      obtain ⟨m1, m2⟩ := r.nodup s' sv' h1
      refine ⟨sv', h1, fun c hc => ⟨hc, ?_⟩, m1, m2⟩
      rintro rfl
      obtain ⟨k1, t1, x1, i1, i2, i3, i4⟩ := r.owned s' sv' _ h1 hc
      by_cases ek : k1 = k
      · subst ek
        rw [hk] at i1; cases i1
        rw [ht] at i3; cases i3
        exact e rfl
      · exact (r.inj k1 k x1 h i2 g1 ek).2.2 i4
  · obtain ⟨e1, h1⟩ := forget_some h1
    obtain ⟨e2, h1⟩ := refs_clear h1
    exact ⟨e1, h1, update_ne _ _ e2⟩

theorem Rel.dropHandle (r : Rel w a) {k : Nat} {t : Traced T} (hk : a.tracers k = some t) (ht : t.solver = none) :
    ∃ w', w.dropHandle k = .ok w' ∧ Rel w' (a.step (.dropHandle k)).2 := by
  obtain ⟨h, g1, g2, g3, _⟩ := r.hsome k t hk
  have hw : w.dropHandle k = .ok { w with
      handles := update w.handles k none
      traits := update w.traits h.traitPtr none
      boxes := update w.boxes h.tracer none } := by
    unfold TraceWorld.dropHandle dropFields freeTrait takeTracer
    simp only [g1, g3, g2, Run.ok_bind]
  refine ⟨_, hw, ?_⟩
  have key : ∀ s' sv' c, w.solvers s' = some sv' → c ∈ sv'.owned → c ≠ h.cClass := by
    rintro s' sv' c h1 hc rfl
    obtain ⟨k1, t1, x1, i1, i2, i3, i4⟩ := r.owned s' sv' _ h1 hc
    by_cases ek : k1 = k
    · subst ek
      rw [hk] at i1; cases i1
      rw [ht] at i3; cases i3
    · exact (r.inj k1 k x1 h i2 g1 ek).2.2 i4
  refine r.remove g1 rfl (fun x hx => update_ne _ _ hx) (fun x hx => update_ne _ _ hx) (fun x _ => rfl) rfl
    r.sol (fun s' sv' c h1 h2 _ => ⟨sv', h1, h2⟩) (fun s' sv' h1 => ?_) (fun s' j h1 => ?_) (update_self _ _ _) (update_self _ _ _)
    fun c d h1 => ⟨h1, fun s' sv' g1' g2' => key s' sv' c g1' g2'⟩
  · exact ⟨sv', h1, fun c hc => ⟨hc, key s' sv' c h1 hc⟩, r.nodup s' sv' h1⟩
  · obtain ⟨e1, h1⟩ := forget_some h1
    exact ⟨e1, h1, rfl⟩

theorem map_eq_some' {α β : Type} {o : Option α} {f : α → β} {b : β} (h : o.map f = some b) : ∃ x, o = some x ∧ f x = b := by
  cases o with
  | none => cases h
  | some x => exact ⟨x, rfl, Option.some.inj h⟩

theorem Rel.dropSolver (r : Rel w a) {s : Nat} (hs : a.solvers s ≠ none) :
    ∃ w', w.dropSolver s = .ok w' ∧ Rel w' (a.step (.dropSolver s)).2 := by
  obtain ⟨sv, c2⟩ := r.solver hs
  obtain ⟨n1, n2⟩ := r.nodup s sv c2
  have hw : w.dropSolver s = .ok { w with
      solvers := update w.solvers s none
      refs := update w.refs s none
      classes := fun c => if c ∈ sv.owned then none else w.classes c } := by
    unfold TraceWorld.dropSolver
    rw [c2]
    refine deleteAll_ok _ _ n1 fun c hc => ?_
    obtain ⟨k1, t1, x1, i1, i2, i3, i4⟩ := r.owned s sv c c2 hc
    have := (r.conn k1 t1 x1 s i1 i2 i3).1
    rw [← i4]
    show (w.classes _).isSome
    rw [this]; rfl
  refine ⟨_, hw, ?_⟩
  refine ⟨fun s' => ?_, fun k' h1 => ?_, fun k' t' h1 => ?_, fun k' t' x s' h1 h2 h3 => ?_, fun s' sv' c h1 h2 => ?_,
    fun s' sv' h1 => ?_, r.inj, fun s' k' h1 => r.ref_clear h1, r.liveB, r.liveT, fun c d h1 => ?_⟩
  rotate_left 6
  · replace h1 : (if c ∈ sv.owned then none else w.classes c) = some d := h1
    by_cases hm : c ∈ sv.owned
    · rw [if_pos hm] at h1; cases h1
    · rw [if_neg hm] at h1
      obtain ⟨s', sv', g1, g2⟩ := r.liveC c d h1
      have e : s' ≠ s := by rintro rfl; rw [c2] at g1; cases g1; exact hm g2
      exact ⟨s', sv', by show update _ _ _ _ = _; rw [update_ne _ _ e]; exact g1, g2⟩
  · show (update w.solvers s none s').map _ = update a.solvers s none s'
    by_cases e : s' = s
    · subst e; rw [update_self, update_self]; rfl
    · rw [update_ne _ _ e, update_ne _ _ e]; exact r.sol s'
  · exact r.hnone k' (by
      replace h1 : (a.tracers k').map _ = none := h1
      exact Option.map_eq_none_iff.1 h1)
  · obtain ⟨t0, g1, g2⟩ := map_eq_some' (show (a.tracers k').map _ = some t' from h1)
    obtain ⟨x, g3, g4⟩ := r.hsome k' t0 g1
    refine ⟨x, g3, ?_⟩
    have : t'.value = t0.value := by
      rw [← g2]; by_cases e : t0.solver = some s
      · rw [if_pos e]
      · rw [if_neg e]
    rw [this]
    exact g4
  · obtain ⟨t0, g1, g2⟩ := map_eq_some' (show (a.tracers k').map _ = some t' from h1)
    have e : t0.solver ≠ some s ∧ t0 = t' := by
      by_cases e : t0.solver = some s
      · rw [if_pos e] at g2; rw [← g2] at h3; cases h3
      · rw [if_neg e] at g2; exact ⟨e, g2⟩
    obtain ⟨e, rfl⟩ := e
    obtain ⟨i1, sv', i2, i3⟩ := r.conn k' t0 x s' g1 h2 h3
    have es : s' ≠ s := fun es => e (es ▸ h3)
    refine ⟨?_, sv', by show update _ _ _ _ = _; rw [update_ne _ _ es]; exact i2, i3⟩
    show (if x.cClass ∈ sv.owned then none else w.classes x.cClass) = _
    rw [if_neg, i1]
    intro hm
    obtain ⟨k1, t1, x1, j1, j2, j3, j4⟩ := r.owned s sv _ c2 hm
    by_cases ek : k1 = k'
    · subst ek
      rw [g1] at j1; cases j1
      exact e j3
    · exact (r.inj k1 k' x1 x j2 h2 ek).2.2 j4
  · replace h1 : update w.solvers s none s' = some sv' := h1
    by_cases e : s' = s
    · subst e; rw [update_self] at h1; cases h1
    · rw [update_ne _ _ e] at h1
      obtain ⟨k1, t1, x1, j1, j2, j3, j4⟩ := r.owned s' sv' c h1 h2
      refine ⟨k1, t1, x1, ?_, j2, j3, j4⟩
      show (a.tracers k1).map _ = _
      rw [j1]
      show some (if t1.solver = some s then _ else _) = _
      rw [if_neg]
      rw [j3]
      exact fun h => e (Option.some.inj h)
  · replace h1 : update w.solvers s none s' = some sv' := h1
    by_cases e : s' = s
    · subst e; rw [update_self] at h1; cases h1
    · rw [update_ne _ _ e] at h1
      exact r.nodup s' sv' h1

theorem nodup_map_of_inj {α β : Type} (f : α → β) : ∀ {l : List α}, l.Nodup → (∀ x ∈ l, ∀ y ∈ l, f x = f y → x = y) →
    (l.map f).Nodup
  | [], _, _ => List.nodup_nil
  | a :: l, h, hi => by
    rw [List.nodup_cons] at h
    rw [List.map_cons, List.nodup_cons]
    refine ⟨fun hm => ?_, nodup_map_of_inj f h.2 fun x hx y hy => hi x (List.mem_cons_of_mem _ hx) y (List.mem_cons_of_mem _ hy)⟩
    obtain ⟨y, hy, e⟩ := List.mem_map.1 hm
    exact h.1 (hi y (List.mem_cons_of_mem _ hy) a List.mem_cons_self e ▸ hy)

theorem Rel.event (r : Rel w a) {s : Nat} {p : ProofStep} (hs : a.solvers s ≠ none) (hp : p.InRange) :
    ∃ w', w.event s p.call = .ok w' ∧ Rel w' (a.step (.event s p)).2 := by
  obtain ⟨sv, c2⟩ := r.solver hs
  obtain ⟨n1, n2⟩ := r.nodup s sv c2
  have htgt : ∀ c ∈ sv.owned, ∃ k t h, a.tracers k = some t ∧ w.handles k = some h ∧ t.solver = some s ∧ h.cClass = c ∧
      w.classes c = some h.traitPtr ∧ w.traits h.traitPtr = some h.tracer ∧ w.boxes h.tracer = some t.value := by
    intro c hc
    obtain ⟨k, t, h, i1, i2, i3, i4⟩ := r.owned s sv c c2 hc
    obtain ⟨j1, _⟩ := r.conn k t h s i1 i2 i3
    obtain ⟨t', j2, j3, j4, _⟩ := r.handle i2
    rw [i1] at j2; cases j2
    exact ⟨k, t, h, i1, i2, i3, i4, i4 ▸ j1, j4, j3⟩
  have hval : ∀ c ∈ sv.owned, ∀ k t h, a.tracers k = some t → w.handles k = some h → t.solver = some s → h.cClass = c →
      w.target c = some h.tracer := by
    intro c hc k t h i1 i2 i3 i4
    obtain ⟨j1, _⟩ := r.conn k t h s i1 i2 i3
    obtain ⟨_, _, _, j4, _⟩ := r.handle i2
    unfold target
    rw [← i4, j1]; exact j4
  have hbox : ∀ k h, w.handles k = some h → ∀ t, a.tracers k = some t →
      (some h.tracer ∈ sv.owned.map w.target ↔ t.solver = some s) := by
    intro k h hk t hkt
    constructor
    · intro hm
      obtain ⟨c, hc, e⟩ := List.mem_map.1 hm
      obtain ⟨k1, t1, h1, i1, i2, i3, i4, _⟩ := htgt c hc
      have e' : h1.tracer = h.tracer := Option.some.inj ((hval c hc k1 t1 h1 i1 i2 i3 i4).symm.trans e)
      by_cases ek : k1 = k
      · subst ek; rw [hkt] at i1; cases i1; exact i3
      · exact absurd e' (r.inj k1 k h1 h i2 hk ek).1
    · intro e
      obtain ⟨_, sv', i1, i2⟩ := r.conn k t h s hkt hk e
      rw [c2] at i1; cases i1
      exact List.mem_map.2 ⟨_, i2, hval _ i2 k t h hkt hk e rfl⟩
  have hw : w.event s p.call = .ok { w with
      refs := update w.refs s none
      boxes := fun b => if some b ∈ sv.owned.map w.target then (w.boxes b).map (TraceProof.react · p.view) else w.boxes b } := by
    unfold TraceWorld.event
    rw [c2]
    show deliverAll _ _ sv.notified = _
    rw [n2]
    refine (deliverAll_ok (Tracer.dispatch_call p hp) _ _ ?_ ?_).trans rfl
    · refine nodup_map_of_inj _ n1 fun x hx y hy e => ?_
      obtain ⟨k1, t1, h1, i1, i2, i3, i4, _⟩ := htgt x hx
      obtain ⟨k2, t2, h2, j1, j2, j3, j4, _⟩ := htgt y hy
      have e' : h1.tracer = h2.tracer :=
        Option.some.inj ((hval x hx k1 t1 h1 i1 i2 i3 i4).symm.trans (e.trans (hval y hy k2 t2 h2 j1 j2 j3 j4)))
      by_cases ek : k1 = k2
      · subst ek; rw [i2] at j2; cases j2; exact i4.symm.trans j4
      · exact absurd e' (r.inj k1 k2 h1 h2 i2 j2 ek).1
    · intro c hc
      obtain ⟨k, t, h, _, _, _, _, j1, j2, j3⟩ := htgt c hc
      exact ⟨_, _, _, j1, j2, j3⟩
  refine ⟨_, hw, ?_⟩
  have hst : ∀ k t', (a.tracers k).map (fun t => if t.solver = some s then { t with value := TraceProof.react t.value p.view } else t) = some t' →
      ∃ t0, a.tracers k = some t0 ∧ t'.solver = t0.solver ∧
        t'.value = if t0.solver = some s then TraceProof.react t0.value p.view else t0.value := by
    intro k t' h1
    obtain ⟨t0, g1, g2⟩ := map_eq_some' h1
    refine ⟨t0, g1, ?_⟩
    by_cases e : t0.solver = some s
    · rw [if_pos e] at g2 ⊢; rw [← g2]; exact ⟨rfl, rfl⟩
    · rw [if_neg e] at g2 ⊢; rw [← g2]; exact ⟨rfl, rfl⟩
  refine ⟨r.sol, fun k' h1 => ?_, fun k' t' h1 => ?_, fun k' t' x s' h1 h2 h3 => ?_, fun s' sv' c h1 h2 => ?_,
    r.nodup, r.inj, fun s' k' h1 => r.ref_clear h1, fun b t' h1 => ?_, r.liveT, r.liveC⟩
  rotate_left 4
  · replace h1 : (if some b ∈ sv.owned.map w.target then (w.boxes b).map (TraceProof.react · p.view) else w.boxes b) = some t' := h1
    by_cases hm : some b ∈ sv.owned.map w.target
    · rw [if_pos hm] at h1
      obtain ⟨t0, g, _⟩ := map_eq_some' h1
      exact r.liveB b t0 g
    · rw [if_neg hm] at h1
      exact r.liveB b t' h1
  · exact r.hnone k' (by
      replace h1 : (a.tracers k').map _ = none := h1
      exact Option.map_eq_none_iff.1 h1)
  · obtain ⟨t0, g1, _, g2⟩ := hst k' t' h1
    obtain ⟨x, g3, g4, g5⟩ := r.hsome k' t0 g1
    refine ⟨x, g3, ?_, g5⟩
    show (if some x.tracer ∈ sv.owned.map w.target then (w.boxes x.tracer).map (TraceProof.react · p.view) else w.boxes x.tracer) = _
    rw [g4, g2]
    by_cases e : t0.solver = some s
    · rw [if_pos ((hbox k' x g3 t0 g1).2 e), if_pos e]; rfl
    · rw [if_neg fun hm => e ((hbox k' x g3 t0 g1).1 hm), if_neg e]
  · obtain ⟨t0, g1, g2, _⟩ := hst k' t' h1
    exact r.conn k' t0 x s' g1 h2 (g2 ▸ h3)
  · obtain ⟨k1, t1, x1, j1, j2, j3, j4⟩ := r.owned s' sv' c h1 h2
    refine ⟨k1, if t1.solver = some s then { t1 with value := TraceProof.react t1.value p.view } else t1, x1, ?_, j2, ?_, j4⟩
    · show (a.tracers k1).map _ = _
      rw [j1]; rfl
    · by_cases e : t1.solver = some s
      · rw [if_pos e]; exact j3
      · rw [if_neg e]; exact j3

theorem Rel.tracerMut (r : Rel w a) {s k : Nat} (hs : a.solvers s ≠ none) (hk : (a.tracers k).isSome) :
    Rel (w.tracerMut s k) (a.step (.tracerMut s k)).2 := by
  obtain ⟨sv, c2⟩ := r.solver hs
  obtain ⟨t, hk⟩ := Option.isSome_iff_exists.1 hk
  obtain ⟨h, g1, _⟩ := r.hsome k t hk
  have hw : w.tracerMut s k = { w with refs := update w.refs s (some h.tracer) } := by
    unfold TraceWorld.tracerMut; simp only [c2, g1]
  rw [hw]
  refine ⟨r.sol, r.hnone, r.hsome, r.conn, r.owned, r.nodup, r.inj, fun s' k' h1 => ?_, r.liveB, r.liveT, r.liveC⟩
  replace h1 : update a.refs s (some k) s' = some k' := h1
  by_cases e : s' = s
  · subst e; rw [update_self] at h1; cases h1
    exact ⟨h, g1, update_self _ _ _⟩
  · rw [update_ne _ _ e] at h1
    obtain ⟨x, i1, i2⟩ := r.ref s' k' h1
    exact ⟨x, i1, by show update _ _ _ _ = _; rw [update_ne _ _ e]; exact i2⟩

theorem Rel.useRef (r : Rel w a) {s : Nat} (f : T → T) (hs : (a.refs s).isSome) :
    ∃ o w', w.useRef s f = .ok (o, w') ∧ (a.step (.useRef s f)).1 = .tracer o ∧ Rel w' (a.step (.useRef s f)).2 := by
  obtain ⟨k, hk⟩ := Option.isSome_iff_exists.1 hs
  obtain ⟨h, g1, g2⟩ := r.ref s k hk
  obtain ⟨t, i1, i2, _⟩ := r.handle g1
  have hw : w.useRef s f = .ok (some t.value, { w with boxes := update w.boxes h.tracer (some (f t.value)) }) := by
    unfold TraceWorld.useRef; simp only [g2, i2]
  have ha : a.step (.useRef s f) = (.tracer (some t.value),
        { a with tracers := fun j => (a.tracers j).map fun t => if j = k then { t with value := f t.value } else t }) := by
    simp only [TraceSpec.step, hk, i1]; rfl
  refine ⟨_, _, hw, by rw [ha], ?_⟩
  rw [ha]
  have hst : ∀ j t', (a.tracers j).map (fun t => if j = k then { t with value := f t.value } else t) = some t' →
      ∃ t0, a.tracers j = some t0 ∧ t'.solver = t0.solver ∧ t'.value = if j = k then f t0.value else t0.value := by
    intro j t' h1
    obtain ⟨t0, g1, g2⟩ := map_eq_some' h1
    refine ⟨t0, g1, ?_⟩
    by_cases e : j = k
    · rw [if_pos e] at g2 ⊢; rw [← g2]; exact ⟨rfl, rfl⟩
    · rw [if_neg e] at g2 ⊢; rw [← g2]; exact ⟨rfl, rfl⟩
  refine ⟨r.sol, fun k' h1 => ?_, fun k' t' h1 => ?_, fun k' t' x s' h1 h2 h3 => ?_, fun s' sv' c h1 h2 => ?_,
    r.nodup, r.inj, r.ref, fun b t' h1 => ?_, r.liveT, r.liveC⟩
  rotate_left 4
  · replace h1 : update w.boxes h.tracer _ b = some t' := h1
    by_cases e : b = h.tracer
    · exact ⟨k, h, g1, e.symm⟩
    · rw [update_ne _ _ e] at h1
      exact r.liveB b t' h1
  · exact r.hnone k' (by
      replace h1 : (a.tracers k').map _ = none := h1
      exact Option.map_eq_none_iff.1 h1)
  · obtain ⟨t0, j1, _, j2⟩ := hst k' t' h1
    obtain ⟨x, j3, j4, j5⟩ := r.hsome k' t0 j1
    refine ⟨x, j3, ?_, j5⟩
    show update w.boxes h.tracer _ x.tracer = _
    by_cases e : k' = k
    · subst e
      rw [g1] at j3; cases j3
      rw [i1] at j1; cases j1
      rw [update_self, j2, if_pos rfl]
    · rw [update_ne _ _ (r.inj k' k x h j3 g1 e).1, j2, if_neg e]; exact j4
  · obtain ⟨t0, j1, j2, _⟩ := hst k' t' h1
    exact r.conn k' t0 x s' j1 h2 (j2 ▸ h3)
  · obtain ⟨k1, t1, x1, j1, j2, j3, j4⟩ := r.owned s' sv' c h1 h2
    refine ⟨k1, if k1 = k then { t1 with value := f t1.value } else t1, x1, ?_, j2, ?_, j4⟩
    · show (a.tracers k1).map _ = _
      rw [j1]; rfl
    · by_cases e : k1 = k
      · rw [if_pos e]; exact j3
      · rw [if_neg e]; exact j3

theorem Rel.step (r : Rel w a) (op : TraceOp T) (h : a.Allowed op) :
    ∃ w', w.step op = .ok ((a.step op).1, w') ∧ Rel w' (a.step op).2 := by
  cases op with
  | newSolver s => exact ⟨_, rfl, r.newSolver h⟩
  | leaveConfiguring s => exact ⟨_, rfl, r.leave h⟩
  | connect s k t =>
    obtain ⟨w', h1, h2⟩ := r.connect t h.1 (Option.isNone_iff_eq_none.1 h.2)
    exact ⟨w', by simp only [TraceWorld.step, h1, Run.ok_bind]; rfl, h2⟩
  | disconnect s k =>
    obtain ⟨hs, t, hk, ht⟩ := h
    obtain ⟨w', h1, h2⟩ := r.disconnect hs hk ht
    exact ⟨w', by simp only [TraceWorld.step, h1, Run.ok_bind, TraceSpec.step, hk]; rfl, h2⟩
  | dropHandle k =>
    obtain ⟨t, hk, ht⟩ := h
    obtain ⟨w', h1, h2⟩ := r.dropHandle hk ht
    exact ⟨w', by simp only [TraceWorld.step, h1, Run.ok_bind]; rfl, h2⟩
  | dropSolver s =>
    obtain ⟨w', h1, h2⟩ := r.dropSolver h
    exact ⟨w', by simp only [TraceWorld.step, h1, Run.ok_bind]; rfl, h2⟩
  | event s p =>
    obtain ⟨w', h1, h2⟩ := r.event h.1 h.2
    exact ⟨w', by simp only [TraceWorld.step, h1, Run.ok_bind]; rfl, h2⟩
  | tracerMut s k => exact ⟨_, rfl, r.tracerMut h.1 h.2⟩
  | useRef s f =>
    obtain ⟨o, w', h1, h2, h3⟩ := r.useRef f h
    exact ⟨w', by simp only [TraceWorld.step, h1, Run.ok_bind, h2], h3⟩

theorem Rel.run : ∀ (ops : List (TraceOp T)) {w : TraceWorld T} {a : TraceSpec T}, Rel w a → a.Proper ops →
    w.run ops = .ok (a.run ops)
  | [], _, _, _, _ => rfl
  | op :: ops, w, a, r, h => by
    obtain ⟨w', h1, h2⟩ := r.step op h.1
    have := Rel.run ops h2 h.2
    simp only [TraceWorld.run, h1, Run.ok_bind, this]
    rfl

theorem Rel.final : ∀ (ops : List (TraceOp T)) {w : TraceWorld T} {a : TraceSpec T}, Rel w a → a.Proper ops →
    ∃ w', w.final ops = .ok w' ∧ Rel w' (a.final ops)
  | [], w, _, r, _ => ⟨w, rfl, r⟩
  | op :: ops, w, a, r, h => by
    obtain ⟨w', h1, h2⟩ := r.step op h.1
    obtain ⟨w'', h3, h4⟩ := Rel.final ops h2 h.2
    exact ⟨w'', by simp only [TraceWorld.final, h1, Run.ok_bind, h3], h4⟩

theorem Rel.init : Rel ({} : TraceWorld T) ({} : TraceSpec T) :=
  ⟨fun _ => rfl, fun _ _ => rfl, fun _ _ h => (by cases h), fun _ _ _ _ h => (by cases h), fun _ _ _ h => (by cases h),
    fun _ _ h => (by cases h), fun _ _ _ _ h => (by cases h), fun _ _ h => (by cases h),
    fun _ _ h => (by cases h), fun _ _ h => (by cases h), fun _ _ h => (by cases h)⟩

end TraceWorld
end RustSat

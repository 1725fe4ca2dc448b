import Verif.Lemmas.Adder
import Verif.Spec.Adder
/-
The invariant of the binary adder over histories.
-/
namespace RustSat
open TotDb (wsumT trueLits wsumT_append)
open Adder

namespace AdderWorld
variable {VM : Type} [ManageVars VM] [LawfulVM VM]

/-- The invariant; `t`: upper bounds are right. -/
structure Inv (t : Prop) (w : AdderWorld VM) : Prop where
  inv : BinaryAdder.Inv t w.enc (ManageVars.nUsed w.vm) w.cls w.ins w.own
  clean : t → w.lbSince = false → w.enc.Clean w.cls
  ubHas : ∀ b, w.ub b → b < wsumT (fun _ => true) w.ins → w.enc.litBuffer = [] ∧ w.enc.HasUb b
  ubFrom : w.enc.litBuffer = [] → ∀ b, w.enc.HasUb b → w.ub b
  lbHas : ∀ b, w.lb b → 1 ≤ b → b ≤ wsumT (fun _ => true) w.ins → w.enc.litBuffer = [] ∧ w.enc.HasLb b
  lbFrom : w.enc.litBuffer = [] → ∀ b, 1 ≤ b → w.enc.HasLb b → w.lb b
  stats : w.enc.nVars = w.own.length ∧ w.enc.nClauses = w.cls.length

theorem handedOut_length {a b : VM} : (CardWorld.handedOut a b).length = ManageVars.nUsed b - ManageVars.nUsed a := by
  simp [CardWorld.handedOut]

omit [LawfulVM VM] in
theorem Inv.start {t : Prop} {lits : List (Lit × Nat)} {vm : VM} (hn : (lits.map (·.1)).Nodup)
    (h : ∀ x ∈ lits, 0 < x.2 ∧ x.1.var < ManageVars.nUsed vm) : (AdderWorld.start lits vm).Inv t := by
  refine ⟨BinaryAdder.Inv.new hn fun x hx => (h x hx).2, fun _ _ => BinaryAdder.Clean.new lits [], fun b hb => hb.elim, fun _ b hb => ?_,
    fun b hb => hb.elim, fun _ b _ hb => ?_, rfl, rfl⟩
  · obtain ⟨st, o, h1, -⟩ := hb; cases h1
  · obtain ⟨st, o, h1, -⟩ := hb; cases h1

/-- The invariant after an encoding of upper bounds, for an encoder that differs in flags of nodes only. -/
theorem Inv.afterUb {t : Prop} {w : AdderWorld VM} (h : w.Inv t) {e : BinaryAdder} {r : URange} {e' : BinaryAdder} {vm' : VM}
    {new : ClauseSet} {lbSince : Bool}
    (hc : BinaryAdder.Changed t .if_ e (Pb.prepareUbRange e.weightSum r) w.vm w.cls w.ins w.own e' vm' new)
    (hcl : t → lbSince = false → e'.Clean (w.cls ++ new))
    (h1 : e.litBuffer = w.enc.litBuffer) (h2 : e.structure_ = w.enc.structure_) (h3 : e.nVars = w.enc.nVars)
    (h4 : e.nClauses = w.enc.nClauses) (h5 : e.weightSum = wsumT (fun _ => true) w.ins) :
    Inv t (⟨e', vm', w.cls ++ new, w.ins, w.own ++ CardWorld.handedOut w.vm vm', fun b => w.ub b ∨ r.contains b, w.lb,
      lbSince⟩ : AdderWorld VM) := by
  have hub : ∀ b, e.HasUb b ↔ w.enc.HasUb b := fun b => by unfold BinaryAdder.HasUb; rw [h2]
  have hlb : ∀ b, e.HasLb b ↔ w.enc.HasLb b := fun b => by unfold BinaryAdder.HasLb; rw [h2]
  have hbuf : e.litBuffer = [] → e'.litBuffer = [] := by
    intro hb
    by_cases hr : (Pb.prepareUbRange e.weightSum r).1 < (Pb.prepareUbRange e.weightSum r).2
    · exact hc.buf hr
    · rw [hc.same hr]; exact hb
  refine ⟨hc.inv, hcl, fun b hb hlt => ?_, fun hb b hu => ?_, fun b hb h6 h7 => ?_, fun hb b h6 hu => ?_, ?_, ?_⟩
  · rcases hb with hb | hb
    · obtain ⟨a1, a2⟩ := h.ubHas b hb hlt
      rw [← h1] at a1
      exact ⟨hbuf a1, hc.keepUb a1 b ((hub b).2 a2)⟩
    · have := Gte.Inv.prepareUb_iff.2 ⟨hb, hlt⟩
      rw [← h5] at this
      exact ⟨hc.buf (by omega), hc.ub rfl b this.1 this.2⟩
  · rcases hc.fromUb hb b hu with ⟨-, h8⟩ | ⟨h8, h9⟩
    · exact Or.inr (Gte.Inv.prepareUb_iff.1 h8).1
    · exact Or.inl (h.ubFrom (by rw [← h1]; exact h8) b ((hub b).1 h9))
  · obtain ⟨a1, a2⟩ := h.lbHas b hb h6 h7
    rw [← h1] at a1
    exact ⟨hbuf a1, hc.keepLb a1 b ((hlb b).2 a2)⟩
  · rcases hc.fromLb hb b h6 hu with ⟨h8, -⟩ | ⟨h8, h9⟩
    · cases h8
    · exact h.lbFrom (by rw [← h1]; exact h8) b h6 ((hlb b).1 h9)
  · show e'.nVars = _
    rw [hc.nv, h3, h.stats.1, List.length_append, handedOut_length]
  · show e'.nClauses = _
    rw [hc.nc, h4, h.stats.2, List.length_append]

theorem Inv.afterLb {t : Prop} {w : AdderWorld VM} (h : w.Inv t) {e : BinaryAdder} {r : URange} {e' : BinaryAdder} {vm' : VM}
    {new : ClauseSet}
    (hc : BinaryAdder.Changed t .onlyIf e (Pb.prepareLbRange e.weightSum r) w.vm w.cls w.ins w.own e' vm' new)
    (h1 : e.litBuffer = w.enc.litBuffer) (h2 : e.structure_ = w.enc.structure_) (h3 : e.nVars = w.enc.nVars)
    (h4 : e.nClauses = w.enc.nClauses) (h5 : e.weightSum = wsumT (fun _ => true) w.ins) :
    Inv t (⟨e', vm', w.cls ++ new, w.ins, w.own ++ CardWorld.handedOut w.vm vm', w.ub,
      fun b => w.lb b ∨ (r.contains b ∧ ¬ w.ub (b - 1)), true⟩ : AdderWorld VM) := by
  have hub : ∀ b, e.HasUb b ↔ w.enc.HasUb b := fun b => by unfold BinaryAdder.HasUb; rw [h2]
  have hlb : ∀ b, e.HasLb b ↔ w.enc.HasLb b := fun b => by unfold BinaryAdder.HasLb; rw [h2]
  have hbuf : e.litBuffer = [] → e'.litBuffer = [] := by
    intro hb
    by_cases hr : (Pb.prepareLbRange e.weightSum r).1 < (Pb.prepareLbRange e.weightSum r).2
    · exact hc.buf hr
    · rw [hc.same hr]; exact hb
  refine ⟨hc.inv, fun _ h => (by cases h), fun b hb hlt => ?_, fun hb b hu => ?_, fun b hb h6 h7 => ?_, fun hb b h6 hu => ?_, ?_, ?_⟩
  · obtain ⟨a1, a2⟩ := h.ubHas b hb hlt
    rw [← h1] at a1
    exact ⟨hbuf a1, hc.keepUb a1 b ((hub b).2 a2)⟩
  · rcases hc.fromUb hb b hu with ⟨h8, -⟩ | ⟨h8, h9⟩
    · cases h8
    · exact h.ubFrom (by rw [← h1]; exact h8) b ((hub b).1 h9)
  · rcases hb with hb | ⟨hb, hn⟩
    · obtain ⟨a1, a2⟩ := h.lbHas b hb h6 h7
      rw [← h1] at a1
      exact ⟨hbuf a1, hc.keepLb a1 b ((hlb b).2 a2)⟩
    · have := BinaryAdder.prepareLb_iff.2 ⟨hb, h6, h7⟩
      rw [← h5] at this
      refine ⟨hc.buf (by omega), ?_⟩
      rcases hc.lb rfl b this.1 this.2 with h8 | ⟨h8, h9⟩
      · exact h8
      · exact absurd (h.ubFrom (by rw [← h1]; exact h8) _ ((hub _).1 h9)) hn
  · rcases hc.fromLb hb b h6 hu with ⟨-, h8, h9, h10⟩ | ⟨h8, h9⟩
    · have h11 := BinaryAdder.prepareLb_iff.1 ⟨h8, h9⟩
      refine Or.inr ⟨h11.1, fun hu => ?_⟩
      obtain ⟨a1, a2⟩ := h.ubHas _ hu (by rw [← h5]; omega)
      rw [← h1] at a1
      exact h10 a1 ((hub _).2 a2)
    · exact Or.inl (h.lbFrom (by rw [← h1]; exact h8) b h6 ((hlb b).1 h9))
  · show e'.nVars = _
    rw [hc.nv, h3, h.stats.1, List.length_append, handedOut_length]
  · show e'.nClauses = _
    rw [hc.nc, h4, h.stats.2, List.length_append]

theorem handedOut_append {a b c : VM} (h1 : ManageVars.nUsed a ≤ ManageVars.nUsed b) (h2 : ManageVars.nUsed b ≤ ManageVars.nUsed c) :
    CardWorld.handedOut a b ++ CardWorld.handedOut b c = CardWorld.handedOut a c := by
  unfold CardWorld.handedOut
  have e1 : ManageVars.nUsed c - ManageVars.nUsed a =
    (ManageVars.nUsed b - ManageVars.nUsed a) + (ManageVars.nUsed c - ManageVars.nUsed b) := by omega
  have e2 : ManageVars.nUsed b = ManageVars.nUsed a + (ManageVars.nUsed b - ManageVars.nUsed a) := by omega
  rw [e1, ← List.range'_append_1, ← e2]

omit [ManageVars VM] [LawfulVM VM] in
theorem addLits_nil : ∀ (l : List (Lit × Nat)) (m : LitMap), l.foldl LitMap.addLit m = [] → l = [] ∧ m = [] := by
  have ins : ∀ (m : LitMap) l k, LitMap.insert m l k ≠ [] := by
    intro m l k
    cases m with
    | nil => simp [LitMap.insert]
    | cons x xs => unfold LitMap.insert; by_cases h : x.1 = l <;> simp [h]
  intro l
  induction l with
  | nil => intro m hm; exact ⟨rfl, hm⟩
  | cons x l ih =>
    intro m hm
    have := (ih _ hm).2
    exfalso
    unfold LitMap.addLit at this
    cases hg : LitMap.get m x.1 with
    | none => rw [hg] at this; exact ins _ _ _ this
    | some k => rw [hg] at this; exact ins _ _ _ this

/-- Every allowed operation succeeds and preserves the invariant. -/
theorem step_spec {t : Prop} (w : AdderWorld VM) (h : w.Inv t) (op : AdderOp VM) (ha : w.allowed op) (hr : t → w.ubSafe op) :
    ∃ w', w.step op = some w' ∧ w'.Inv t := by
  have hws := h.inv.weightSum
  cases op with
  | add lits =>
    refine ⟨_, rfl, h.inv.extend fun x hx => (ha x hx).2, h.clean, ?_, ?_, ?_, ?_, h.stats⟩
    · rintro b ⟨h1, rfl⟩ h2
      exact h.ubHas b h1 (by simpa using h2)
    · intro hb b hu
      have hl := addLits_nil lits w.enc.litBuffer hb
      exact ⟨h.ubFrom hl.2 b hu, hl.1⟩
    · rintro b ⟨h1, rfl⟩ h2 h3
      exact h.lbHas b h1 h2 (by simpa using h3)
    · intro hb b h1 hu
      have hl := addLits_nil lits w.enc.litBuffer hb
      exact ⟨h.lbFrom hl.2 b h1 hu, hl.1⟩
  | encodeUb r =>
    obtain ⟨e', vm', new, e1, hc⟩ := h.inv.reset.encodeUbChange (fun _ => BinaryAdder.Clean.reset _ _) r w.cls
    refine ⟨_, by simp only [step, BinaryAdder.encodeUb, e1]; rfl, ?_⟩
    exact h.afterUb hc (fun ht _ => hc.clean rfl ht) rfl rfl rfl rfl h.inv.reset.weightSum
  | encodeUbChange r =>
    obtain ⟨e', vm', new, e1, hc⟩ := h.inv.encodeUbChange (fun ht => h.clean ht (hr ht)) r w.cls
    refine ⟨_, by simp only [step, e1]; rfl, ?_⟩
    exact h.afterUb hc (fun ht _ => hc.clean rfl ht) rfl rfl rfl rfl hws
  | encodeLb r =>
    obtain ⟨e', vm', new, e1, hc⟩ := h.inv.reset.encodeLbChange r w.cls
    refine ⟨_, by simp only [step, BinaryAdder.encodeLb, e1]; rfl, ?_⟩
    exact h.afterLb hc rfl rfl rfl rfl h.inv.reset.weightSum
  | encodeLbChange r =>
    obtain ⟨e', vm', new, e1, hc⟩ := h.inv.encodeLbChange r w.cls
    refine ⟨_, by simp only [step, e1]; rfl, ?_⟩
    exact h.afterLb hc rfl rfl rfl rfl hws
  | encodeBoth r =>
    obtain ⟨e1, vm1, new1, q1, hc1⟩ := h.inv.encodeUbChange (fun ht => h.clean ht (hr ht)) r w.cls
    have h1 := h.afterUb (lbSince := false) hc1 (fun ht _ => hc1.clean rfl ht) rfl rfl rfl rfl hws
    obtain ⟨e2, vm2, new2, q2, hc2⟩ := h1.inv.encodeLbChange r (w.cls ++ new1)
    have h2 := h1.afterLb hc2 rfl rfl rfl rfl h1.inv.weightSum
    refine ⟨_, by simp only [step, BinaryAdder.encodeBoth, q1, q2]; rfl, ?_⟩
    simp only [List.append_assoc, handedOut_append hc1.le hc2.le] at h2
    have e : (fun b => w.lb b ∨ (r.contains b ∧ ¬ (w.ub (b - 1) ∨ r.contains (b - 1)))) =
        fun b => w.lb b ∨ (r.contains b ∧ ¬ w.ub (b - 1) ∧ ¬ r.contains (b - 1)) := by
      funext b; simp only [not_or]
    rw [← e, List.append_assoc]
    exact h2
  | rehash buffer =>
    have hp : buffer.Perm w.enc.litBuffer := ha
    have hnil : buffer = [] ↔ w.enc.litBuffer = [] := by
      constructor
      · intro hb; rw [hb] at hp; exact hp.nil_eq.symm
      · intro hb; rw [hb] at hp; exact hp.eq_nil
    refine ⟨_, rfl, h.inv.rehash hp, h.clean, fun b h1 h2 => ?_, fun hb b hu => h.ubFrom (hnil.1 hb) b hu, fun b h1 h2 h3 => ?_,
      fun hb b h1 hu => h.lbFrom (hnil.1 hb) b h1 hu, h.stats⟩
    · obtain ⟨a1, a2⟩ := h.ubHas b h1 h2
      exact ⟨hnil.2 a1, a2⟩
    · obtain ⟨a1, a2⟩ := h.lbHas b h1 h2 h3
      exact ⟨hnil.2 a1, a2⟩
  | useVars vm => exact ⟨_, rfl, h.inv.more ha, h.clean, h.ubHas, h.ubFrom, h.lbHas, h.lbFrom, h.stats⟩

theorem Reach.inv {t : Prop} {R : AdderWorld VM → AdderOp VM → Prop} (hR : t → ∀ w op, R w op → ubSafe w op) {w : AdderWorld VM}
    (h : Reach R w) : w.Inv t := by
  induction h with
  | start lits vm hn hl => exact Inv.start hn hl
  | step w w' op _ hr ha hs ih =>
    obtain ⟨w2, e, h2⟩ := step_spec w ih op ha fun ht => hR ht w op hr
    rw [hs] at e; cases e; exact h2

end AdderWorld
end RustSat

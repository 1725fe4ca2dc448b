import Verif.Model.Adder
import Verif.Lemmas.Gte
import Mathlib.Tactic.Ring
import Mathlib.Tactic.Linarith
import Mathlib.Data.Nat.Bitwise
/-
The structure of the binary adder: the equation relating inputs, adders, and outputs.
-/
namespace RustSat
namespace Adder
open TotDb (wsumT)

/-- Connections to earlier nodes, and inputs satisfying `P`. -/
def Con.good (P : Lit → Prop) (k : Nat) : Con → Prop
  | .input l => P l
  | .sum i => i < k
  | .carry i => i < k

theorem Con.good.mono {P Q : Lit → Prop} {k k' : Nat} {c : Con} (h : c.good P k) (hP : ∀ l, P l → Q l) (hk : k ≤ k') :
    c.good Q k' := by
  cases c with
  | input l => exact hP l h
  | sum i => exact Nat.lt_of_lt_of_le h hk
  | carry i => exact Nat.lt_of_lt_of_le h hk

/-- The inputs of all nodes. -/
abbrev Shape := List (List Con)

/-- All nodes are full or half adders with earlier nodes as inputs. -/
def ShapeOK (P : Lit → Prop) (k : Nat) (sh : Shape) : Prop :=
  ∀ (j : Nat) c, sh[j]? = some c → (c.length = 2 ∨ c.length = 3) ∧ ∀ x ∈ c, x.good P (k + j)

/-- The total value of the inputs of nodes, where `cols` are the positions of the nodes. -/
def lhs (v : Con → Nat) : Shape → List Nat → Nat
  | c :: sh, k :: cols => 2 ^ k * (c.map v).sum + lhs v sh cols
  | _, _ => 0

/-- The total value of the outputs of nodes, starting with number `i`. -/
def rhs (v : Con → Nat) : Nat → List Nat → Nat
  | _, [] => 0
  | i, k :: cols => 2 ^ k * (v (.sum i) + 2 * v (.carry i)) + rhs v (i + 1) cols

/-- The total value of buckets, from position `i`. -/
def bval (v : Con → Nat) : Nat → List (List Con) → Nat
  | _, [] => 0
  | i, b :: bs => 2 ^ i * (b.map v).sum + bval v (i + 1) bs

/-- The total value of the inputs. -/
def inval (v : Con → Nat) (ins : List (Lit × Nat)) : Nat := (ins.map fun x => x.2 * v (.input x.1)).sum

theorem lhs_append (v : Con → Nat) {s1 : Shape} {c1 : List Nat} (h : s1.length = c1.length) (s2 : Shape) (c2 : List Nat) :
    lhs v (s1 ++ s2) (c1 ++ c2) = lhs v s1 c1 + lhs v s2 c2 := by
  induction s1 generalizing c1 with
  | nil =>
    cases c1 with
    | nil => simp [lhs]
    | cons _ _ => cases h
  | cons a s1 ih =>
    cases c1 with
    | nil => cases h
    | cons k c1 =>
      simp only [List.cons_append, lhs]
      rw [ih (by simpa using h)]; omega

theorem rhs_append (v : Con → Nat) (i : Nat) (c1 c2 : List Nat) :
    rhs v i (c1 ++ c2) = rhs v i c1 + rhs v (i + c1.length) c2 := by
  induction c1 generalizing i with
  | nil => simp [rhs]
  | cons k c1 ih =>
    simp only [List.cons_append, rhs, List.length_cons]
    rw [ih, show i + 1 + c1.length = i + (c1.length + 1) by omega]; omega

theorem ShapeOK.append {P : Lit → Prop} {k : Nat} {s1 s2 : Shape} (h1 : ShapeOK P k s1) (h2 : ShapeOK P (k + s1.length) s2) :
    ShapeOK P k (s1 ++ s2) := by
  intro j c hj
  by_cases h : j < s1.length
  · rw [List.getElem?_append_left h] at hj; exact h1 j c hj
  · rw [List.getElem?_append_right (by omega)] at hj
    have := h2 _ _ hj
    rw [show k + s1.length + (j - s1.length) = k + j by omega] at this
    exact this

theorem ShapeOK.mono {P Q : Lit → Prop} {k : Nat} {sh : Shape} (h : ShapeOK P k sh) (hP : ∀ l, P l → Q l) : ShapeOK Q k sh :=
  fun j c hj => ⟨(h j c hj).1, fun x hx => ((h j c hj).2 x hx).mono hP (Nat.le_refl _)⟩

/-- What reducing a bucket yields. -/
structure Reduced (P : Lit → Prop) (k : Nat) (b b' cs : List Con) (news : List Node) : Prop where
  short : b'.length ≤ 1
  len : cs.length = news.length
  few : cs.length ≤ b.length - 1
  clear : ∀ nd ∈ news, nd.sum = none ∧ nd.carry = none
  shape : ShapeOK P k (news.map (·.ins))
  good : ∀ x ∈ b', x.good P (k + news.length)
  cgood : ∀ x ∈ cs, x.good P (k + news.length)
  eq : ∀ (v : Con → Nat) i, 2 ^ i * (b'.map v).sum + 2 ^ (i + 1) * (cs.map v).sum +
      lhs v (news.map (·.ins)) (List.replicate news.length i) =
    2 ^ i * (b.map v).sum + rhs v k (List.replicate news.length i)

theorem reduce_spec (P : Lit → Prop) : ∀ (fuel : Nat) (b carries : List Con) (nodes : List Node), b.length ≤ fuel →
    (∀ x ∈ b, x.good P nodes.length) → ∃ b' cs news, reduce fuel b carries nodes = (b', carries ++ cs, nodes ++ news) ∧
      Reduced P nodes.length b b' cs news := by
  intro fuel
  induction fuel with
  | zero =>
    intro b carries nodes hf hb
    have : b = [] := List.length_eq_zero_iff.1 (by omega)
    subst this
    exact ⟨[], [], [], by simp [reduce], by simp, rfl, by simp, by simp, fun j c h => by simp at h, by simp, by simp,
      fun v i => by simp [lhs, rhs]⟩
  | succ fuel ih =>
    intro b carries nodes hf hb
    match b, hf, hb with
    | [], _, _ =>
      exact ⟨[], [], [], by simp [reduce], by simp, rfl, by simp, by simp, fun j c h => by simp at h, by simp, by simp,
        fun v i => by simp [lhs, rhs]⟩
    | [a], _, hb =>
      exact ⟨[a], [], [], by simp [reduce], by simp, rfl, by simp, by simp, fun j c h => by simp at h,
        by simpa using hb, by simp, fun v i => by simp [lhs, rhs]⟩
    | [a, b], _, hb =>
      refine ⟨[.sum nodes.length], [.carry nodes.length], [⟨[a, b], none, none⟩], by simp [reduce], by simp, rfl, by simp,
        by simp, ?_, ?_, ?_, ?_⟩
      · intro j c hj
        cases j with
        | zero => simp at hj; subst hj; exact ⟨Or.inl rfl, by simpa using hb⟩
        | succ j => simp at hj
      · intro x hx; simp at hx; subst hx; simp [Con.good]
      · intro x hx; simp at hx; subst hx; simp [Con.good]
      · intro v i; simp [lhs, rhs, List.replicate]; ring
    | a :: b :: c :: rest, hf, hb =>
      simp only [List.length_cons] at hf
      obtain ⟨b', cs, news, he, hr⟩ := ih (rest ++ [.sum nodes.length]) (carries ++ [.carry nodes.length])
        (nodes ++ [⟨[a, b, c], none, none⟩]) (by simp; omega) (by
          intro x hx
          simp only [List.mem_append, List.mem_singleton] at hx
          rcases hx with hx | rfl
          · exact (hb x (by simp [hx])).mono (fun _ h => h) (by simp)
          · simp [Con.good])
      rw [show (nodes ++ [(⟨[a, b, c], none, none⟩ : Node)]).length = nodes.length + 1 by simp] at hr
      have e1 := hr.few; have e2 := hr.len
      rw [List.length_append, List.length_singleton] at e1
      refine ⟨b', .carry nodes.length :: cs, ⟨[a, b, c], none, none⟩ :: news, by simp [reduce, he], hr.short, by simp [e2],
        by simp; omega, ?_, ?_, ?_, ?_, ?_⟩
      · intro nd hnd
        rcases List.mem_cons.1 hnd with rfl | hnd
        · exact ⟨rfl, rfl⟩
        · exact hr.clear nd hnd
      · intro j cc hj
        cases j with
        | zero =>
          simp at hj; subst hj
          refine ⟨Or.inr rfl, fun x hx => hb x ?_⟩
          simp at hx ⊢
          rcases hx with h | h | h <;> simp [h]
        | succ j =>
          have := hr.shape j cc (by simpa using hj)
          rw [show nodes.length + 1 + j = nodes.length + (j + 1) by omega] at this
          exact this
      · intro x hx; exact (hr.good x hx).mono (fun _ h => h) (by simp; omega)
      · intro x hx
        rcases List.mem_cons.1 hx with rfl | hx
        · simp [Con.good]
        · exact (hr.cgood x hx).mono (fun _ h => h) (by simp; omega)
      · intro v i
        have := hr.eq v i
        simp only [List.map_append, List.sum_append, List.map_cons, List.map_nil, List.sum_cons, List.sum_nil,
          List.length_cons, List.replicate_succ, lhs, rhs] at this ⊢
        generalize lhs v _ _ = A at *
        generalize rhs v _ _ = B at *
        have e : 2 ^ (i + 1) = 2 * 2 ^ i := by rw [Nat.pow_succ]; ring
        rw [e] at this ⊢
        nlinarith [this]

theorem size_cons (b : List Con) (bs : List (List Con)) : size (b :: bs) = b.length + 1 + size bs := by
  simp [size]

/-- What building the encoding yields. -/
structure Built (P : Lit → Prop) (k : Nat) (os : List (Option Con)) (news : List Node) : Prop where
  clear : ∀ nd ∈ news, nd.sum = none ∧ nd.carry = none
  shape : ShapeOK P k (news.map (·.ins))
  good : ∀ c, some c ∈ os → c.good P (k + news.length)

theorem build_spec (P : Lit → Prop) : ∀ (fuel i : Nat) (bs : List (List Con)) (nodes : List Node), size bs ≤ fuel →
    (∀ b ∈ bs, ∀ x ∈ b, x.good P nodes.length) → ∃ os news cols, build fuel bs nodes = (os, nodes ++ news) ∧
      cols.length = news.length ∧ Built P nodes.length os news ∧
      ∀ v, bval v i (os.map Option.toList) + lhs v (news.map (·.ins)) cols = bval v i bs + rhs v nodes.length cols := by
  intro fuel
  induction fuel with
  | zero =>
    intro i bs nodes hf hb
    cases bs with
    | nil => exact ⟨[], [], [], by simp [build], rfl, ⟨by simp, fun j c h => by simp at h, by simp⟩, fun v => by simp [bval, lhs, rhs]⟩
    | cons b bs => rw [size_cons] at hf; omega
  | succ fuel ih =>
    intro i bs nodes hf hb
    cases bs with
    | nil => exact ⟨[], [], [], by simp [build], rfl, ⟨by simp, fun j c h => by simp at h, by simp⟩, fun v => by simp [bval, lhs, rhs]⟩
    | cons b bs =>
      obtain ⟨b', cs, n1, he, hr⟩ := reduce_spec P b.length b [] nodes (Nat.le_refl _) (hb b (by simp))
      rw [List.nil_append] at he
      rw [size_cons] at hf
      have key : ∀ next : List (List Con), size next ≤ fuel → (∀ b ∈ next, ∀ x ∈ b, x.good P (nodes.length + n1.length)) →
          (∀ v, bval v (i + 1) next = bval v (i + 1) bs + 2 ^ (i + 1) * (cs.map v).sum) →
          ∃ os news cols, (let (os, nodes) := build fuel next (nodes ++ n1); (b'.head? :: os, nodes)) = (os, nodes ++ news) ∧
            cols.length = news.length ∧ Built P nodes.length os news ∧
            ∀ v, bval v i (os.map Option.toList) + lhs v (news.map (·.ins)) cols =
              bval v i (b :: bs) + rhs v nodes.length cols := by
        intro next h1 h2 h3
        obtain ⟨os, n2, cols, he2, hl, hB, hv⟩ := ih (i + 1) next (nodes ++ n1) h1 (by simpa using h2)
        rw [List.length_append] at hB
        refine ⟨b'.head? :: os, n1 ++ n2, List.replicate n1.length i ++ cols, by simp [he2], by simp [hl], ⟨?_, ?_, ?_⟩, ?_⟩
        · intro nd hnd
          rcases List.mem_append.1 hnd with h | h
          · exact hr.clear nd h
          · exact hB.clear nd h
        · rw [List.map_append]
          exact hr.shape.append (by simpa using hB.shape)
        · intro c hc
          rcases List.mem_cons.1 hc with h | h
          · exact (hr.good c (List.mem_of_mem_head? h.symm)).mono (fun _ h => h) (by simp)
          · exact (hB.good c h).mono (fun _ h => h) (by simp; omega)
        · intro v
          have e1 := hv v; have e2 := hr.eq v i; have e3 := h3 v
          have hs : (b'.head?.toList.map v).sum = (b'.map v).sum := by
            have := hr.short
            match b' with
            | [] => rfl
            | [x] => rfl
            | _ :: _ :: _ => simp at this
          rw [List.map_append, lhs_append v (by simp), rhs_append]
          simp only [List.map_cons, bval, hs, List.length_replicate]
          rw [List.length_append] at e1
          omega
      have hfew := hr.few
      unfold build
      simp only [he]
      cases bs with
      | nil =>
        by_cases h2 : 2 ≤ b.length
        · simp only [h2, if_true]
          refine key [cs] ?_ ?_ ?_
          · simp [size] at hf ⊢; omega
          · intro x hx; simp at hx; subst hx; exact hr.cgood
          · intro v; simp [bval]
        · simp only [h2, if_false]
          have : cs = [] := List.length_eq_zero_iff.1 (by omega)
          subst this
          refine key [] (by simp [size]) (by simp) ?_
          intro v; simp [bval]
      | cons b2 bs =>
        refine key ((b2 ++ cs) :: bs) ?_ ?_ ?_
        · rw [size_cons] at hf ⊢; rw [List.length_append]
          by_cases h2 : b.length = 0 <;> omega
        · intro x hx y hy
          rcases List.mem_cons.1 hx with rfl | hx
          · rcases List.mem_append.1 hy with h | h
            · exact (hb b2 (by simp) y h).mono (fun _ h => h) (by omega)
            · exact hr.cgood y h
          · exact (hb x (by simp [hx]) y hy).mono (fun _ h => h) (by omega)
        · intro v
          simp only [bval, List.map_append, List.sum_append]; ring

/-! ### Filling the buckets -/

theorem mod_two_pow_succ (x i : Nat) : x % 2 ^ (i + 1) = x % 2 ^ i + 2 ^ i * (x.testBit i).toNat := by
  rw [Nat.mod_pow_succ, Nat.testBit_eq_decide_div_mod_eq]
  rcases Nat.mod_two_eq_zero_or_one (x / 2 ^ i) with h | h <;> simp [h]

theorem pushLit_val (v : Con → Nat) (x : Lit × Nat) : ∀ (bs : List (List Con)) (i : Nat),
    bval v i (pushLit x i bs) + x.2 % 2 ^ i * v (.input x.1) = bval v i bs + x.2 % 2 ^ (i + bs.length) * v (.input x.1) := by
  intro bs
  induction bs with
  | nil => intro i; simp [pushLit, bval]
  | cons b bs ih =>
    intro i
    have h := ih (i + 1)
    have e := mod_two_pow_succ x.2 i
    rw [show i + 1 + bs.length = i + (b :: bs).length by simp; omega] at h
    simp only [pushLit, bval]
    rw [e] at h
    by_cases hb : x.2.testBit i = true
    · rw [hb] at h
      simp only [hb, if_true, List.map_append, List.sum_append, List.map_cons, List.map_nil, List.sum_cons, List.sum_nil,
        Bool.toNat_true, Nat.mul_one, Nat.add_zero] at h ⊢
      nlinarith [h]
    · rw [Bool.not_eq_true] at hb
      rw [hb] at h
      simp only [hb, Bool.false_eq_true, if_false, Bool.toNat_false, Nat.mul_zero, Nat.add_zero] at h ⊢
      omega

theorem bval_append (v : Con → Nat) (b1 b2 : List (List Con)) (i : Nat) :
    bval v i (b1 ++ b2) = bval v i b1 + bval v (i + b1.length) b2 := by
  induction b1 generalizing i with
  | nil => simp [bval]
  | cons b b1 ih =>
    simp only [List.cons_append, bval, List.length_cons]
    rw [ih, show i + 1 + b1.length = i + (b1.length + 1) by omega]; omega

theorem bval_replicate (v : Con → Nat) (k i : Nat) : bval v i (List.replicate k []) = 0 := by
  induction k generalizing i with
  | zero => rfl
  | succ k ih => simp [List.replicate_succ, bval, ih]

theorem pad_val (v : Con → Nat) (bs : List (List Con)) (k i : Nat) : bval v i (pad bs k) = bval v i bs := by
  unfold pad
  rw [bval_append, bval_replicate]; rfl

theorem pad_length (bs : List (List Con)) (k : Nat) : k ≤ (pad bs k).length ∧ bs.length ≤ (pad bs k).length := by
  unfold pad; simp; omega

theorem lt_bitLen (w : Nat) : w < 2 ^ bitLen w := by
  unfold bitLen
  by_cases h : w = 0
  · simp [h]
  · rw [if_neg h]; exact Nat.lt_log2_self

theorem addInput_val (v : Con → Nat) (bs : List (List Con)) (x : Lit × Nat) :
    bval v 0 (addInput bs x) = bval v 0 bs + x.2 * v (.input x.1) := by
  unfold addInput
  have h := pushLit_val v x (pad bs (bitLen x.2 + 1)) 0
  have hl := (pad_length bs (bitLen x.2 + 1)).1
  have hlt : x.2 < 2 ^ (pad bs (bitLen x.2 + 1)).length :=
    Nat.lt_of_lt_of_le (lt_bitLen x.2) (Nat.pow_le_pow_right (by omega) (by omega))
  rw [pad_val, Nat.zero_add, Nat.mod_eq_of_lt hlt] at h
  rw [Nat.pow_zero, Nat.mod_one, Nat.zero_mul, Nat.add_zero] at h
  exact h

theorem addInputs_val (v : Con → Nat) : ∀ (lits : List (Lit × Nat)) (bs : List (List Con)),
    bval v 0 (lits.foldl addInput bs) = bval v 0 bs + inval v lits := by
  intro lits
  induction lits with
  | nil => intro bs; simp [inval]
  | cons x xs ih =>
    intro bs
    rw [List.foldl_cons, ih, addInput_val]; simp [inval]; omega

theorem addOutputs_val (v : Con → Nat) : ∀ (bs : List (List Con)) (os : List (Option Con)) (i : Nat), os.length ≤ bs.length →
    bval v i (addOutputs bs os) = bval v i bs + bval v i (os.map Option.toList) := by
  intro bs
  induction bs with
  | nil =>
    intro os i h
    have : os = [] := List.length_eq_zero_iff.1 (by simpa using h)
    subst this; simp [addOutputs, bval]
  | cons b bs ih =>
    intro os i h
    cases os with
    | nil => simp [addOutputs, bval]
    | cons o os =>
      simp only [addOutputs, bval, List.map_cons, List.map_append, List.sum_append]
      rw [ih os (i + 1) (by simpa using h)]; ring

theorem pushLit_good {P : Lit → Prop} {k : Nat} {x : Lit × Nat} (hx : P x.1) : ∀ (bs : List (List Con)) (i : Nat),
    (∀ b ∈ bs, ∀ c ∈ b, c.good P k) → ∀ b ∈ pushLit x i bs, ∀ c ∈ b, c.good P k := by
  intro bs
  induction bs with
  | nil => intro i h b hb; simp [pushLit] at hb
  | cons b bs ih =>
    intro i h b' hb' c hc
    unfold pushLit at hb'
    rcases List.mem_cons.1 hb' with rfl | hb'
    · by_cases ht : x.2.testBit i = true
      · rw [if_pos ht] at hc
        rcases List.mem_append.1 hc with hc | hc
        · exact h b (by simp) c hc
        · simp at hc; subst hc; exact hx
      · rw [if_neg ht] at hc; exact h b (by simp) c hc
    · exact ih (i + 1) (fun b hb => h b (by simp [hb])) b' hb' c hc

theorem pad_good {P : Lit → Prop} {k m : Nat} {bs : List (List Con)} (h : ∀ b ∈ bs, ∀ c ∈ b, c.good P k) :
    ∀ b ∈ pad bs m, ∀ c ∈ b, c.good P k := by
  intro b hb c hc
  unfold pad at hb
  rcases List.mem_append.1 hb with hb | hb
  · exact h b hb c hc
  · rw [(List.mem_replicate.1 hb).2] at hc; cases hc

theorem addInputs_good {P : Lit → Prop} {k : Nat} : ∀ (lits : List (Lit × Nat)) (bs : List (List Con)), (∀ x ∈ lits, P x.1) →
    (∀ b ∈ bs, ∀ c ∈ b, c.good P k) → ∀ b ∈ lits.foldl addInput bs, ∀ c ∈ b, c.good P k := by
  intro lits
  induction lits with
  | nil => intro bs _ h; exact h
  | cons x xs ih =>
    intro bs hl h
    rw [List.foldl_cons]
    exact ih _ (fun y hy => hl y (by simp [hy])) (pushLit_good (hl x (by simp)) _ _ (pad_good h))

theorem addOutputs_good {P : Lit → Prop} {k : Nat} : ∀ (bs : List (List Con)) (os : List (Option Con)),
    (∀ b ∈ bs, ∀ c ∈ b, c.good P k) → (∀ c, some c ∈ os → c.good P k) → ∀ b ∈ addOutputs bs os, ∀ c ∈ b, c.good P k := by
  intro bs
  induction bs with
  | nil => intro os _ _ b hb; cases os <;> simp [addOutputs] at hb
  | cons b bs ih =>
    intro os h ho
    cases os with
    | nil => exact h
    | cons o os =>
      intro b' hb' c hc
      simp only [addOutputs] at hb'
      rcases List.mem_cons.1 hb' with rfl | hb'
      · rcases List.mem_append.1 hc with hc | hc
        · exact h b (by simp) c hc
        · cases o with
          | none => simp at hc
          | some o => simp at hc; subst hc; exact ho c (by simp)
      · exact ih os (fun b hb => h b (by simp [hb])) (fun c hc => ho c (by simp [hc])) b' hb' c hc

/-! ### Every node is used -/

theorem lhs_pos {v : Con → Nat} : ∀ {sh : Shape} {cols : List Nat}, 0 < lhs v sh cols →
    ∃ (k : Nat) (c : List Con), sh[k]? = some c ∧ ∃ x ∈ c, 0 < v x := by
  intro sh
  induction sh with
  | nil => intro cols h; simp [lhs] at h
  | cons c sh ih =>
    intro cols h
    cases cols with
    | nil => simp [lhs] at h
    | cons k cols =>
      simp only [lhs] at h
      by_cases h0 : (c.map v).sum = 0
      · rw [h0, Nat.mul_zero, Nat.zero_add] at h
        obtain ⟨k, c', h1, h2⟩ := ih h
        exact ⟨k + 1, c', by simpa using h1, h2⟩
      · refine ⟨0, c, rfl, ?_⟩
        apply Classical.byContradiction
        intro hn
        apply h0
        apply List.sum_eq_zero_iff_forall_eq_nat.2
        intro y hy
        obtain ⟨x, hx, rfl⟩ := List.mem_map.1 hy
        exact Nat.eq_zero_of_not_pos fun h => hn ⟨x, hx, h⟩

theorem bval_pos {v : Con → Nat} : ∀ {os : List (Option Con)} {i : Nat}, 0 < bval v i (os.map Option.toList) →
    ∃ c, some c ∈ os ∧ 0 < v c := by
  intro os
  induction os with
  | nil => intro i h; simp [bval] at h
  | cons o os ih =>
    intro i h
    simp only [List.map_cons, bval] at h
    by_cases h0 : (o.toList.map v).sum = 0
    · rw [h0, Nat.mul_zero, Nat.zero_add] at h
      obtain ⟨c, h1, h2⟩ := ih h
      exact ⟨c, by simp [h1], h2⟩
    · cases o with
      | none => simp at h0
      | some c => exact ⟨c, by simp, by simp at h0; omega⟩

theorem rhs_pos {v : Con → Nat} : ∀ {cols : List Nat} {i j : Nat}, j < cols.length →
    0 < v (.sum (i + j)) + v (.carry (i + j)) → 0 < rhs v i cols := by
  intro cols
  induction cols with
  | nil => intro i j h; simp at h
  | cons k cols ih =>
    intro i j h hv
    simp only [rhs]
    cases j with
    | zero =>
      have : 0 < 2 ^ k * (v (.sum i) + 2 * v (.carry i)) := Nat.mul_pos (Nat.pow_pos (by omega)) (by simp at hv; omega)
      omega
    | succ j =>
      have := ih (i := i + 1) (j := j) (by simpa using h) (by rw [show i + 1 + j = i + (j + 1) by omega]; exact hv)
      omega

/-- The equation of a structure with the outputs `os`. -/
def Balanced (os : List (Option Con)) (sh : Shape) (cols : List Nat) (ins : List (Lit × Nat)) : Prop :=
  cols.length = sh.length ∧ ∀ v, bval v 0 (os.map Option.toList) + lhs v sh cols = inval v ins + rhs v 0 cols

/-- Every output of a node is used. -/
theorem Balanced.used {os : List (Option Con)} {sh : Shape} {cols : List Nat} {ins : List (Lit × Nat)}
    (h : Balanced os sh cols ins) {c : Con} {j : Nat} (hc : c = .sum j ∨ c = .carry j) (hj : j < sh.length) :
    some c ∈ os ∨ ∃ (k : Nat) (i : List Con), sh[k]? = some i ∧ c ∈ i := by
  have hv := h.2 (fun x => if x = c then 1 else 0)
  have h1 : 0 < rhs (fun x => if x = c then 1 else 0) 0 cols := by
    apply rhs_pos (j := j) (by rw [h.1]; exact hj)
    rw [Nat.zero_add]
    rcases hc with rfl | rfl <;> simp
  by_cases h2 : 0 < bval (fun x => if x = c then 1 else 0) 0 (os.map Option.toList)
  · left
    obtain ⟨c', h3, h4⟩ := bval_pos h2
    by_cases he : c' = c
    · rw [← he]; exact h3
    · rw [if_neg he] at h4; omega
  · right
    obtain ⟨k, i, h3, x, hx, h4⟩ := lhs_pos (sh := sh) (cols := cols) (v := fun x => if x = c then 1 else 0) (by omega)
    refine ⟨k, i, h3, ?_⟩
    by_cases he : x = c
    · rw [← he]; exact hx
    · rw [if_neg he] at h4; omega

/-! ### Exact values -/

/-- The exact value of a connection, with recursion depth `fuel`. -/
def evalFuel (sh : Shape) (t : Lit → Bool) : Nat → Con → Bool
  | _, .input l => t l
  | 0, _ => false
  | f + 1, .sum j => decide ((((sh[j]?).getD []).map fun c => (evalFuel sh t f c).toNat).sum % 2 = 1)
  | f + 1, .carry j => decide (2 ≤ (((sh[j]?).getD []).map fun c => (evalFuel sh t f c).toNat).sum)

/-- The exact value of a connection. -/
def eval (sh : Shape) (t : Lit → Bool) (c : Con) : Bool := evalFuel sh t (sh.length + 1) c

/-- As a number. -/
def evalN (sh : Shape) (t : Lit → Bool) (c : Con) : Nat := (eval sh t c).toNat

theorem evalFuel_stable {P : Lit → Prop} {sh : Shape} (h : ShapeOK P 0 sh) (t : Lit → Bool) :
    ∀ (k f g : Nat) (sh' : Shape) (c : Con), k ≤ f → k ≤ g → k ≤ sh.length → c.good P k →
      evalFuel sh t f c = evalFuel (sh ++ sh') t g c := by
  intro k
  induction k with
  | zero =>
    intro f g sh' c _ _ _ hc
    cases c with
    | input l => simp [evalFuel]
    | sum i => exact absurd hc (Nat.not_lt_zero _)
    | carry i => exact absurd hc (Nat.not_lt_zero _)
  | succ k ih =>
    intro f g sh' c hf hg hk hc
    obtain ⟨f, rfl⟩ : ∃ f', f = f' + 1 := ⟨f - 1, by omega⟩
    obtain ⟨g, rfl⟩ : ∃ g', g = g' + 1 := ⟨g - 1, by omega⟩
    have key : ∀ j, j < k + 1 → ((sh[j]?).getD []).map (fun c => (evalFuel sh t f c).toNat) =
        (((sh ++ sh')[j]?).getD []).map (fun c => (evalFuel (sh ++ sh') t g c).toNat) := by
      intro j hj
      have hjl : j < sh.length := by omega
      rw [List.getElem?_append_left hjl]
      have hx := h j sh[j] (List.getElem?_eq_getElem hjl)
      rw [List.getElem?_eq_getElem hjl]
      apply List.map_congr_left
      intro x hxm
      rw [ih f g sh' x (by omega) (by omega) (by omega) ((hx.2 x hxm).mono (fun _ h => h) (by omega))]
    cases c with
    | input l => simp [evalFuel]
    | sum i => simp only [evalFuel]; rw [key i hc]
    | carry i => simp only [evalFuel]; rw [key i hc]

theorem eval_append {P : Lit → Prop} {sh : Shape} (h : ShapeOK P 0 sh) (t : Lit → Bool) (sh' : Shape) {c : Con}
    (hc : c.good P sh.length) : eval (sh ++ sh') t c = eval sh t c := by
  unfold eval
  exact (evalFuel_stable h t sh.length _ _ sh' c (by omega) (by simp; omega) (Nat.le_refl _) hc).symm

theorem eval_input (sh : Shape) (t : Lit → Bool) (l : Lit) : eval sh t (.input l) = t l := by
  unfold eval; simp [evalFuel]

theorem eval_node {P : Lit → Prop} {sh : Shape} (h : ShapeOK P 0 sh) (t : Lit → Bool) {j : Nat} {i : List Con}
    (hj : sh[j]? = some i) :
    eval sh t (.sum j) = decide ((i.map (evalN sh t)).sum % 2 = 1) ∧
    eval sh t (.carry j) = decide (2 ≤ (i.map (evalN sh t)).sum) := by
  have hjl : j < sh.length := (List.getElem?_eq_some_iff.1 hj).1
  have e : i.map (fun c => (evalFuel sh t sh.length c).toNat) = i.map (evalN sh t) := by
    apply List.map_congr_left
    intro x hx
    unfold evalN eval
    have := evalFuel_stable h t j sh.length (sh.length + 1) [] x (by omega) (by omega) (by omega)
      (((h j i hj).2 x hx).mono (fun _ h => h) (by omega))
    rw [List.append_nil] at this
    rw [this]
  constructor
  · unfold eval
    simp only [evalFuel, hj, Option.getD_some]
    rw [← e]
  · unfold eval
    simp only [evalFuel, hj, Option.getD_some]
    rw [← e]

theorem sum_le_length (f : Con → Nat) (hf : ∀ c, f c ≤ 1) (l : List Con) : (l.map f).sum ≤ l.length := by
  induction l with
  | nil => simp
  | cons x xs ih => have := hf x; simp only [List.map_cons, List.sum_cons, List.length_cons]; omega

theorem evalN_node {P : Lit → Prop} {sh : Shape} (h : ShapeOK P 0 sh) (t : Lit → Bool) {j : Nat} {i : List Con}
    (hj : sh[j]? = some i) : evalN sh t (.sum j) + 2 * evalN sh t (.carry j) = (i.map (evalN sh t)).sum := by
  obtain ⟨h1, h2⟩ := eval_node h t hj
  have h3 := sum_le_length (evalN sh t) (fun c => Bool.toNat_le _) i
  have h4 := (h j i hj).1
  rw [show evalN sh t (.sum j) = (eval sh t (.sum j)).toNat from rfl,
    show evalN sh t (.carry j) = (eval sh t (.carry j)).toNat from rfl, h1, h2]
  generalize (i.map (evalN sh t)).sum = s at *
  have h5 : s ≤ 3 := by omega
  match s, h5 with
  | 0, _ => rfl
  | 1, _ => rfl
  | 2, _ => rfl
  | 3, _ => rfl

/-! ### Comparing inputs and outputs -/

theorem lhs_le_rhs {v : Con → Nat} : ∀ {sh : Shape} {cols : List Nat} {i : Nat}, cols.length = sh.length →
    (∀ (j : Nat) c, sh[j]? = some c → (c.map v).sum ≤ v (.sum (i + j)) + 2 * v (.carry (i + j))) →
    lhs v sh cols ≤ rhs v i cols := by
  intro sh
  induction sh with
  | nil => intro cols i _ _; simp [lhs]
  | cons c sh ih =>
    intro cols i hl h
    cases cols with
    | nil => simp [lhs]
    | cons k cols =>
      simp only [lhs, rhs]
      have h1 := h 0 c rfl
      have h2 := ih (cols := cols) (i := i + 1) (by simpa using hl) (fun j c hj => by
        have := h (j + 1) c (by simpa using hj)
        rw [show i + 1 + j = i + (j + 1) by omega]; exact this)
      have h3 := Nat.mul_le_mul_left (2 ^ k) h1
      rw [Nat.add_zero] at h3
      omega

theorem rhs_le_lhs {v : Con → Nat} : ∀ {sh : Shape} {cols : List Nat} {i : Nat}, cols.length = sh.length →
    (∀ (j : Nat) c, sh[j]? = some c → v (.sum (i + j)) + 2 * v (.carry (i + j)) ≤ (c.map v).sum) →
    rhs v i cols ≤ lhs v sh cols := by
  intro sh
  induction sh with
  | nil =>
    intro cols i hl _
    have : cols = [] := List.length_eq_zero_iff.1 (by simpa using hl)
    subst this; simp [rhs]
  | cons c sh ih =>
    intro cols i hl h
    cases cols with
    | nil => simp at hl
    | cons k cols =>
      simp only [lhs, rhs]
      have h1 := h 0 c rfl
      have h2 := ih (cols := cols) (i := i + 1) (by simpa using hl) (fun j c hj => by
        have := h (j + 1) c (by simpa using hj)
        rw [show i + 1 + j = i + (j + 1) by omega]; exact this)
      have h3 := Nat.mul_le_mul_left (2 ^ k) h1
      rw [Nat.add_zero] at h3
      omega

theorem Balanced.le {os : List (Option Con)} {sh : Shape} {cols : List Nat} {ins : List (Lit × Nat)}
    (h : Balanced os sh cols ins) {v : Con → Nat}
    (hv : ∀ (j : Nat) c, sh[j]? = some c → (c.map v).sum ≤ v (.sum j) + 2 * v (.carry j)) :
    inval v ins ≤ bval v 0 (os.map Option.toList) := by
  have h1 := h.2 v
  have h2 := lhs_le_rhs (v := v) (i := 0) h.1 (by simpa using hv)
  omega

theorem Balanced.ge {os : List (Option Con)} {sh : Shape} {cols : List Nat} {ins : List (Lit × Nat)}
    (h : Balanced os sh cols ins) {v : Con → Nat}
    (hv : ∀ (j : Nat) c, sh[j]? = some c → v (.sum j) + 2 * v (.carry j) ≤ (c.map v).sum) :
    bval v 0 (os.map Option.toList) ≤ inval v ins := by
  have h1 := h.2 v
  have h2 := rhs_le_lhs (v := v) (i := 0) h.1 (by simpa using hv)
  omega

theorem Balanced.exact {P : Lit → Prop} {os : List (Option Con)} {sh : Shape} {cols : List Nat} {ins : List (Lit × Nat)}
    (h : Balanced os sh cols ins) (hs : ShapeOK P 0 sh) (t : Lit → Bool) :
    bval (evalN sh t) 0 (os.map Option.toList) = wsumT t ins := by
  have h1 := h.le (v := evalN sh t) fun j c hj => Nat.le_of_eq (evalN_node hs t hj).symm
  have h2 := h.ge (v := evalN sh t) fun j c hj => Nat.le_of_eq (evalN_node hs t hj)
  have h3 : inval (evalN sh t) ins = wsumT t ins := by
    unfold inval wsumT
    congr 1
    apply List.map_congr_left
    intro x _
    rw [show evalN sh t (.input x.1) = (eval sh t (.input x.1)).toNat from rfl, eval_input]
    cases t x.1 <;> simp
  omega

end Adder
end RustSat

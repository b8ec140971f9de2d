import Verif.Smat.Lemmas
import Verif.Slist.Lemmas
/- More lemmas for C101. -/
namespace Voss.Smat
open Voss.Pre

variable {o : Order}

theorem of_some {α : Type} (a : α) : Out.ofOption (some a) = .ok a := rfl

theorem bind_ok {α β : Type} (a : α) (f : α → Out β) : (Out.ok a).bind f = f a := rfl

/-! ### Assignments -/

theorem load_set_in {n : String} {b : Bool} {k : Nat} {η : Env} {ns : List String} (h : n ∈ ns) : load ns k (η.set n b) = load ns k η := by
  funext m
  by_cases hm : m ∈ ns
  · exact load_in hm
  · rw [load_notin hm, load_notin hm, Env.set, if_neg]
    rintro rfl
    exact hm h

theorem load_set_out {n : String} {b : Bool} {k : Nat} {η : Env} {ns : List String} (h : n ∉ ns) :
    load ns k (η.set n b) = (load ns k η).set n b := by
  funext m
  by_cases hm : m ∈ ns
  · have : m ≠ n := fun e => h (e ▸ hm)
    rw [Env.set, if_neg this]
    exact load_in hm
  · rw [load_notin hm]
    by_cases hn : m = n
    · simp [Env.set, hn]
    · simp [Env.set, hn, load_notin hm]

theorem load_mod (x : Nat) : ∀ (ns : List String) (k : Nat) (η : Env), load ns (2 ^ ns.length * x + k) η = load ns k η
  | [], _, _ => rfl
  | n :: ns, k, η => by
    simp only [load, List.length_cons]
    have h1 := load_mod (2 * x) ns k η
    rw [show 2 ^ ns.length * (2 * x) = 2 ^ (ns.length + 1) * x by rw [pow_succ]; ring] at h1
    have h2 : (2 ^ (ns.length + 1) * x + k) / 2 ^ ns.length % 2 = k / 2 ^ ns.length % 2 := by
      rw [show 2 ^ (ns.length + 1) * x + k = k + 2 ^ ns.length * (2 * x) by rw [pow_succ]; ring,
        Nat.add_mul_div_left _ _ (Nat.two_pow_pos _), Nat.add_mul_mod_self_left]
    simp only [h1, h2]

theorem sumTo_add (a : Nat) : ∀ (b : Nat) (f : Nat → Int), sumTo (a + b) f = sumTo a f + sumTo b fun k => f (a + k)
  | 0, f => by simp [sumTo]
  | b + 1, f => by rw [← Nat.add_assoc, sumTo, sumTo_add a b, sumTo]; ring

theorem sumTo_congr {f g : Nat → Int} : ∀ (n : Nat), (∀ k < n, f k = g k) → sumTo n f = sumTo n g
  | 0, _ => rfl
  | n + 1, h => by rw [sumTo, sumTo, sumTo_congr n fun k hk => h k (by omega), h n (by omega)]

theorem sumTo_zero : ∀ (n : Nat), sumTo n (fun _ => 0) = 0
  | 0 => rfl
  | n + 1 => by rw [sumTo, sumTo_zero n]; rfl

theorem sumTo_cut {f : Nat → Int} {a b : Nat} (hab : a ≤ b) (h : ∀ k, a ≤ k → k < b → f k = 0) : sumTo b f = sumTo a f := by
  obtain ⟨c, rfl⟩ := Nat.exists_eq_add_of_le hab
  rw [sumTo_add, sumTo_congr c (g := fun _ => 0) fun k hk => h _ (by omega) (by omega), sumTo_zero]
  ring

theorem total_load (g : Env → Int) : ∀ (ns : List String) (η : Env), ns.Nodup →
    Sum.total ns g η = sumTo (2 ^ ns.length) fun k => g (load ns k η)
  | [], η, _ => by simp [Sum.total, sumTo, load]
  | n :: ns, η, h => by
    rw [List.nodup_cons] at h
    rw [Sum.total, total_load g ns _ h.2, total_load g ns _ h.2, List.length_cons, pow_succ, Nat.mul_two, sumTo_add]
    have hp := Nat.two_pow_pos ns.length
    rw [Int.add_comm]
    congr 1
    · refine sumTo_congr _ fun k hk => ?_
      rw [load_set_out h.1, load, Nat.div_eq_of_lt hk]
      rfl
    · refine sumTo_congr _ fun k hk => ?_
      have := load_mod 1 ns k η
      rw [Nat.mul_one] at this
      rw [load_set_out h.1, load, this, Nat.add_div_left _ hp, Nat.div_eq_of_lt hk]
      rfl

theorem indep_of_depends {l : List (Fn o)} {n : String} (h : n ∉ Fn.depends l) : Independent l n := fun η b =>
  sv_agree fun m hm => by
    have : m ≠ n := fun e => h (e ▸ hm)
    simp [Env.set, this]

/-- Assignments that differ in variables that the vector does not depend on. -/
theorem sv_indep {l : List (Fn o)} : ∀ (ns : List String) {η ζ : Env}, (∀ n, n ∉ ns → η n = ζ n) →
    (∀ n ∈ ns, η n = ζ n ∨ Independent l n) → Bv.sv l η = Bv.sv l ζ
  | [], η, ζ, h, _ => by rw [funext fun n => h n (by simp)]
  | n :: ns, η, ζ, h1, h2 => by
    have e : Bv.sv l η = Bv.sv l (η.set n (ζ n)) := by
      rcases h2 n (by simp) with h | h
      · rw [← h, Sum.set_self]
      · exact (h η _).symm
    rw [e]
    refine sv_indep ns (fun m hm => ?_) (fun m hm => ?_)
    · by_cases hmn : m = n
      · simp [Env.set, hmn]
      · simp only [Env.set, if_neg hmn]
        exact h1 m (by simp [hmn, hm])
    · by_cases hmn : m = n
      · left; simp [Env.set, hmn]
      · simp only [Env.set, if_neg hmn]
        exact h2 m (by simp [hm])

theorem sv_indep_load {l : List (Fn o)} {ns : List String} (h : ∀ n ∈ ns, Independent l n) (k : Nat) (η : Env) :
    Bv.sv l (load ns k η) = Bv.sv l η :=
  sv_indep ns (fun _ hn => load_notin hn) fun n hn => .inr (h n hn)

theorem indep_cell {l : List (Fn o)} {rn cn : List String} (h : ∀ n ∈ rn ++ cn, Independent l n) (i j : Nat) (η : Env) :
    Bv.sv l (load rn i (load cn j η)) = Bv.sv l η := by
  rw [sv_indep_load fun n hn => h n (by simp [hn]), sv_indep_load fun n hn => h n (by simp [hn])]

/-! ### Indices -/

section
variable {sm : SMat o} {rn cn : List String}

theorem Indexed.rnd (h : Indexed sm rn cn) : rn.Nodup := (List.nodup_append.1 h.nodup).1
theorem Indexed.cnd (h : Indexed sm rn cn) : cn.Nodup := (List.nodup_append.1 h.nodup).2.1
theorem Indexed.disj (h : Indexed sm rn cn) : ∀ n ∈ rn, n ∉ cn := fun n hn hc =>
  (List.nodup_append.1 h.nodup).2.2 n hn n hc rfl
theorem Indexed.ridx_ne (h : Indexed sm rn cn) : sm.ridx ≠ [] := by rw [h.ridx]; simp
theorem Indexed.cidx_ne (h : Indexed sm rn cn) : sm.cidx ≠ [] := by rw [h.cidx]; simp

theorem Indexed.row_at (h : Indexed sm rn cn) {i : Nat} (hi : i < 2 ^ rn.length) (j : Nat) (η : Env) :
    Bv.sv sm.ridx (load rn i (load cn j η)) = i := by
  rw [h.ridx, sv_load h.rnd hi]

theorem Indexed.col_at (h : Indexed sm rn cn) (i : Nat) {j : Nat} (hj : j < 2 ^ cn.length) (η : Env) :
    Bv.sv sm.cidx (load rn i (load cn j η)) = j := by
  rw [h.cidx, sv_index_load _ _ fun n hn hr => h.disj n hr hn, sv_load h.cnd hj]

theorem Indexed.ridx_indep (h : Indexed sm rn cn) {n : String} (hn : n ∉ rn) : Independent sm.ridx n := fun η b => by
  rw [h.ridx, sv_index, sv_index]
  congr 2
  refine List.map_congr_left fun m hm => ?_
  have : m ≠ n := fun e => hn (e ▸ hm)
  simp [Env.set, this]

theorem Indexed.cidx_indep (h : Indexed sm rn cn) {n : String} (hn : n ∉ cn) : Independent sm.cidx n := fun η b => by
  rw [h.cidx, sv_index, sv_index]
  congr 2
  refine List.map_congr_left fun m hm => ?_
  have : m ≠ n := fun e => hn (e ▸ hm)
  simp [Env.set, this]
end

/-- Vectors are equal. -/
theorem eq_spec {a b : List (Fn o)} (ha : a ≠ []) (hb : b ≠ []) :
    ∃ c, Bv.bvEq a b = some c ∧ ∀ η, c.ev η = decide (Bv.sv a η = Bv.sv b η) :=
  (Bv.c11_compare a b ha hb).2.2.2.2.1

theorem geq_spec {a b : List (Fn o)} (ha : a ≠ []) (hb : b ≠ []) :
    ∃ c, Bv.bvGeq a b = some c ∧ ∀ η, c.ev η = decide (Bv.sv a η ≥ Bv.sv b η) :=
  (Bv.c11_compare a b ha hb).2.2.2.1

/-- A conditional outside of other conditionals. -/
theorem branch_top (c : Fn o) {x y : List (Fn o)} (hx : x ≠ []) (hy : y ≠ []) {t : Fn o → Out (List (Fn o))}
    {e : Fn o → Out (List (Fn o))} (ht : ∀ p, t p = .ok x) (he : ∀ p, e p = .ok y) :
    ∃ r, branch (Fn.tt o) c t e mergeBv = .ok r ∧ r ≠ [] ∧ ∀ η, Bv.sv r η = if c.ev η then Bv.sv x η else Bv.sv y η := by
  by_cases hc : c = Fn.tt o
  · refine ⟨x, ?_, hx, fun η => by simp [hc]⟩
    unfold branch
    rw [if_pos hc, ht]
  · obtain ⟨r, h1, h2, h3, _⟩ := Sum.branch_bv c hc hx hy ht he
    exact ⟨r, h1, h2, h3⟩

theorem chain_spec {idx : List (Fn o)} (hidx : idx ≠ []) : ∀ (l : List (List (Fn o))) (i : Nat), (∀ v ∈ l, v ≠ []) →
    ∃ r, chain idx i l = .ok r ∧ r ≠ [] ∧
      ∀ η (k : Nat), Bv.sv idx η = k → Bv.sv r η = if i ≤ k then (l[k - i]?.map fun v => Bv.sv v η).getD 0 else 0
  | [], i, _ => ⟨_, rfl, intBv_ne_nil 0, fun η k _ => by rw [sv_intBv]; simp⟩
  | v :: l, i, h => by
    obtain ⟨r, h1, h2, h3⟩ := chain_spec hidx l (i + 1) fun v hv => h v (by simp [hv])
    obtain ⟨c, c1, c2⟩ := eq_spec hidx (intBv_ne_nil (o := o) (i : Int))
    obtain ⟨x, x1, x2, x3⟩ := branch_top c (x := v) (y := r) (t := fun _ => .ok v) (e := fun _ => .ok r) (h v (by simp)) h2
      (fun _ => rfl) (fun _ => rfl)
    refine ⟨x, ?_, x2, fun η k hk => ?_⟩
    · rw [chain, h1, bind_ok, c1, of_some, bind_ok, x1]
    · rw [x3, c2, sv_intBv, hk, h3 η k hk]
      by_cases hki : k = i
      · subst hki
        simp
      · have : ¬ ((k : Int) = i) := by omega
        simp only [this, decide_false, Bool.false_eq_true, if_false]
        by_cases hle : i ≤ k
        · rw [if_pos (by omega : i + 1 ≤ k), if_pos hle, show k - i = (k - (i + 1)) + 1 by omega, List.getElem?_cons_succ]
        · rw [if_neg (by omega), if_neg hle]

theorem collect_ok {α : Type} {P : α → Prop} : ∀ {l : List (Out α)}, (∀ x ∈ l, ∃ a, x = .ok a ∧ P a) →
    ∃ r, collect l = .ok r ∧ (∀ a ∈ r, P a) ∧ l = r.map .ok
  | [], _ => ⟨[], rfl, by simp, rfl⟩
  | x :: l, h => by
    obtain ⟨a, rfl, ha⟩ := h x (by simp)
    obtain ⟨r, h1, h2, h3⟩ := collect_ok (l := l) fun y hy => h y (by simp [hy])
    exact ⟨a :: r, by rw [collect, bind_ok, h1]; rfl, by simpa using ⟨ha, h2⟩, by rw [h3]; rfl⟩

/-- The matrix that depends on the indices. -/
theorem int_spec {r c : List (Fn o)} (hr : r ≠ []) (hc : c ≠ []) (m : List (List Int)) :
    ∃ v, intMatrix2symb r c m = .ok v ∧ v ≠ [] ∧
      ∀ η (i j : Nat), Bv.sv r η = i → Bv.sv c η = j → Bv.sv v η = ((m[i]?.bind fun row => row[j]?).getD 0) := by
  obtain ⟨rows, h1, h2, h3⟩ := collect_ok (P := fun v : List (Fn o) => v ≠ [])
    (l := m.map fun ints => chain c 0 (ints.map (intBv o))) (by
      intro x hx
      obtain ⟨ints, _, rfl⟩ := List.mem_map.1 hx
      obtain ⟨v, v1, v2, _⟩ := chain_spec hc (ints.map (intBv o)) 0 (by
        intro v hv
        obtain ⟨k, _, rfl⟩ := List.mem_map.1 hv
        exact intBv_ne_nil k)
      exact ⟨v, v1, v2⟩)
  obtain ⟨v, v1, v2, v3⟩ := chain_spec hr rows 0 h2
  refine ⟨v, ?_, v2, fun η i j hi hj => ?_⟩
  · rw [intMatrix2symb, h1, bind_ok, v1]
  · rw [v3 η i hi, if_pos (Nat.zero_le _), Nat.sub_zero]
    have hlen : m.length = rows.length := by simpa using congrArg List.length h3
    have hat := congrArg (fun l => l[i]?) h3
    simp only [List.getElem?_map] at hat
    cases hm : m[i]? with
    | none =>
      rw [hm] at hat
      cases hw : rows[i]? with
      | none => rfl
      | some w => rw [hw] at hat; simp at hat
    | some ints =>
      rw [hm] at hat
      cases hw : rows[i]? with
      | none => rw [hw] at hat; simp at hat
      | some w =>
        rw [hw] at hat
        simp only [Option.map_some, Option.some.injEq] at hat
        obtain ⟨u, u1, _, u3⟩ := chain_spec hc (ints.map (intBv o)) 0 (by
          intro v hv
          obtain ⟨k, _, rfl⟩ := List.mem_map.1 hv
          exact intBv_ne_nil k)
        rw [hat] at u1
        cases u1
        simp only [Option.map_some, Option.getD_some, Option.bind_some]
        rw [u3 η j hj, if_pos (Nat.zero_le _), Nat.sub_zero, List.getElem?_map]
        cases ints[j]? with
        | none => rfl
        | some k => simp [sv_intBv]

/-! ### Elements that are vectors -/

theorem merge_yields {c : Fn o} {g : Env → Int} (x y : List (Fn o)) (hx : x ≠ []) (hy : y ≠ []) :
    Slist.Yields True (mergeBv c x y) fun z => z ≠ [] ∧
      ∀ η, (c.ev η = true → Bv.sv x η = g η → Bv.sv z η = g η) ∧ (c.ev η = false → Bv.sv y η = g η → Bv.sv z η = g η) := by
  refine ⟨Bv.iteList_ne_nil _ _ _ hx hy, fun η => ⟨fun h1 h2 => ?_, fun h1 h2 => ?_⟩⟩
  · rw [Bv.sv_iteList c x y hx hy η, show Bv.Fml.den c η = true from h1, h2]; rfl
  · rw [Bv.sv_iteList c x y hx hy η, show Bv.Fml.den c η = false from h1, h2]; rfl

theorem doCol_spec {c : List (Fn o)} (hc : c ≠ []) {rc : Fn o} {next : Fn o → Out (List (Fn o))} {g : Env → Int} {cj : Env → Nat}
    (hj : ∀ η, Bv.sv c η = cj η) :
    ∀ (vs : List (List (Fn o))) (j : Nat) (p : Fn o), (∀ v ∈ vs, v ≠ []) → (∃ η, p.ev η = true) →
      (∀ η k v, rc.ev η = true → vs[k]? = some v → cj η = j + k → g η = Bv.sv v η) →
      (∀ p', (∃ η, p'.ev η = true) →
        (∀ η, p'.ev η = true → p.ev η = true ∧ (rc.ev η = true → cj η < j ∨ j + vs.length ≤ cj η)) →
        Slist.Yields True (next p') fun x => x ≠ [] ∧ ∀ η, p'.ev η = true → Bv.sv x η = g η) →
      Slist.Yields True (doCol c rc next j vs p) fun x => x ≠ [] ∧ ∀ η, p.ev η = true → Bv.sv x η = g η
  | [], j, p, _, hp, _, hn => hn p hp fun η h => ⟨h, fun _ => by simp; omega⟩
  | v :: vs, j, p, hv, hp, hg, hn => by
    obtain ⟨q, q1, q2⟩ := eq_spec hc (intBv_ne_nil (o := o) (j : Int))
    rw [doCol, q1, of_some, bind_ok]
    have hq : ∀ η, (rc.and q).ev η = true ↔ rc.ev η = true ∧ cj η = j := fun η => by
      rw [Fn.and_ev, q2, sv_intBv, hj]
      simp
    refine Slist.branch_yields (R := fun x => x ≠ []) (Q := fun η x => Bv.sv x η = g η) hp ?_ ?_
      fun x y hx hy => merge_yields x y hx hy
    · intro p' _ h2
      refine ⟨hv v (by simp), fun η hη => ?_⟩
      have := (hq η).1 ((h2 η).1 hη).2
      exact (hg η 0 v this.1 (by simp) (by omega)).symm
    · intro p' h1 h2
      have hnot : ∀ η, p'.ev η = true → rc.ev η = true → cj η ≠ j := fun η hη hr hcj => by
        have := ((h2 η).1 hη).2
        rw [(hq η).2 ⟨hr, hcj⟩] at this
        simp at this
      refine doCol_spec hc hj vs (j + 1) p' (fun v hv' => hv v (by simp [hv'])) h1 (fun η k w h3 h4 h5 => ?_) fun p'' h3 h4 => ?_
      · exact hg η (k + 1) w h3 (by simpa using h4) (by omega)
      · refine hn p'' h3 fun η hη => ⟨((h2 η).1 (h4 η hη).1).1, fun hr => ?_⟩
        have a := hnot η (h4 η hη).1 hr
        have b := (h4 η hη).2 hr
        simp only [List.length_cons]
        omega

theorem doRow_spec {r c : List (Fn o)} (hr : r ≠ []) (hc : c ≠ []) {g : Env → Int} {ri cj : Env → Nat} (hi : ∀ η, Bv.sv r η = ri η)
    (hj : ∀ η, Bv.sv c η = cj η) :
    ∀ (m : List (List (List (Fn o)))) (i : Nat) (p : Fn o), (∀ row ∈ m, ∀ v ∈ row, v ≠ []) → (∃ η, p.ev η = true) →
      (∀ η k row l v, m[k]? = some row → row[l]? = some v → ri η = i + k → cj η = l → g η = Bv.sv v η) →
      (∀ η, p.ev η = true → (∀ k row, m[k]? = some row → ri η = i + k → row.length ≤ cj η) → g η = 0) →
      Slist.Yields True (doRow r c i m p) fun x => x ≠ [] ∧ ∀ η, p.ev η = true → Bv.sv x η = g η
  | [], i, p, _, hp, _, hz => ⟨intBv_ne_nil 0, fun η h => by rw [sv_intBv, hz η h (by simp)]⟩
  | row :: m, i, p, hv, hp, hg, hz => by
    obtain ⟨q, q1, q2⟩ := eq_spec hr (intBv_ne_nil (o := o) (i : Int))
    rw [doRow, q1, of_some, bind_ok]
    have hq : ∀ η, q.ev η = true ↔ ri η = i := fun η => by
      rw [q2, sv_intBv, hi]
      simp
    refine doCol_spec hc hj row 0 p (hv row (by simp)) hp (fun η k v h1 h2 h3 => ?_) fun p' h1 h2 => ?_
    · exact hg η 0 row k v (by simp) h2 (by have := (hq η).1 h1; omega) (by omega)
    · refine doRow_spec hr hc hi hj m (i + 1) p' (fun row hr => hv row (by simp [hr])) h1 (fun η k row l v h3 h4 h5 h6 => ?_)
        fun η hη h3 => ?_
      · exact hg η (k + 1) row l v (by simpa using h3) h4 (by omega) h6
      · refine hz η (h2 η hη).1 fun k row' h4 h5 => ?_
        cases k with
        | zero =>
          simp only [List.getElem?_cons_zero, Option.some.injEq] at h4
          subst h4
          have := (h2 η hη).2 ((hq η).2 (by omega))
          omega
        | succ k => exact h3 k row' (by simpa using h4) (by omega)

/-- The matrix that depends on the indices, for elements that are vectors. -/
theorem bv_spec {r c : List (Fn o)} (hr : r ≠ []) (hc : c ≠ []) (h0 : ∀ η, 0 ≤ Bv.sv r η) (h1 : ∀ η, 0 ≤ Bv.sv c η)
    (m : List (List (List (Fn o)))) (hm : ∀ row ∈ m, ∀ v ∈ row, v ≠ []) :
    ∃ v, doRow r c 0 m (Fn.tt o) = .ok v ∧ v ≠ [] ∧ ∀ η (i j : Nat), Bv.sv r η = i → Bv.sv c η = j →
      Bv.sv v η = (((m[i]?.bind fun row => row[j]?).map fun v => Bv.sv v η).getD 0) := by
  obtain ⟨v, v1, v2, v3⟩ := (doRow_spec hr hc
    (g := fun η => ((m[(Bv.sv r η).toNat]?.bind fun row => row[(Bv.sv c η).toNat]?).map fun v => Bv.sv v η).getD 0)
    (ri := fun η => (Bv.sv r η).toNat) (cj := fun η => (Bv.sv c η).toNat) (fun η => (Int.toNat_of_nonneg (h0 η)).symm)
    (fun η => (Int.toNat_of_nonneg (h1 η)).symm) m 0 (Fn.tt o) hm ⟨fun _ => true, rfl⟩ (by
      intro η k row l v a1 a2 a3 a4
      rw [Nat.zero_add] at a3
      simp [a3, a4, a1, a2]) (by
      intro η _ a
      cases hrow : m[(Bv.sv r η).toNat]? with
      | none => rfl
      | some row =>
        have := a _ row hrow (by omega)
        simp [List.getElem?_eq_none_iff.2 this])).exists trivial
  refine ⟨v, v1, v2, fun η i j hi hj => ?_⟩
  rw [v3 η rfl, hi, hj]
  simp

end Voss.Smat

import Verif.Smat.Spec
import Verif.Sum.Props
import Verif.Pre.IntsProps
import Verif.Pre.ParamProps
/- Lemmas for C101. -/
namespace Voss.Smat
open Voss.Pre

variable {o : Order}

/-! ### Index variables -/

theorem load_notin : ∀ {ns : List String} {k : Nat} {η : Env} {n : String}, n ∉ ns → load ns k η n = η n
  | [], _, _, _, _ => rfl
  | m :: ns, k, η, n, h => by
    simp only [List.mem_cons, not_or] at h
    simp only [load, Env.set, if_neg h.1]
    exact load_notin h.2

/-- The values of the variables do not depend on the assignment changed. -/
theorem load_in : ∀ {ns : List String} {k : Nat} {η ζ : Env} {n : String}, n ∈ ns → load ns k η n = load ns k ζ n
  | [], _, _, _, _, h => absurd h (by simp)
  | m :: ns, k, η, ζ, n, h => by
    simp only [load, Env.set]
    by_cases hm : n = m
    · simp [hm]
    · rw [if_neg hm, if_neg hm]
      exact load_in ((List.mem_cons.1 h).resolve_left hm)

theorem map_load : ∀ {ns : List String} (k : Nat) (η : Env), ns.Nodup → ns.map (load ns k η) = digitsOf ns.length k
  | [], _, _, _ => rfl
  | n :: ns, k, η, h => by
    rw [List.nodup_cons] at h
    simp only [List.map_cons, List.length_cons, digitsOf]
    rw [show load (n :: ns) k η n = decide (k / 2 ^ ns.length % 2 = 1) by simp [load, Env.set]]
    congr 1
    rw [← map_load k η h.2]
    refine List.map_congr_left fun m hm => ?_
    have : m ≠ n := fun e => h.1 (e ▸ hm)
    simp [load, Env.set, this]

theorem digitsOf_uv : ∀ l : List Bool, digitsOf l.length (Bv.uv l) = l
  | [] => rfl
  | b :: l => by
    have hl := Bv.uv_lt l
    have hp : 0 < 2 ^ l.length := Nat.two_pow_pos _
    simp only [List.length_cons, digitsOf, Bv.uv]
    have e : ∀ x, digitsOf l.length (x * 2 ^ l.length + Bv.uv l) = digitsOf l.length (Bv.uv l) := by
      intro x
      have h1 := uv_digitsOf l.length (x * 2 ^ l.length + Bv.uv l)
      have gen : ∀ (w n m : Nat), n % 2 ^ w = m % 2 ^ w → digitsOf w n = digitsOf w m := by
        intro w
        induction w with
        | zero => intros; rfl
        | succ w ih =>
          intro n m h
          simp only [digitsOf]
          have h1 : n / 2 ^ w % 2 = m / 2 ^ w % 2 := by
            have a := Nat.mod_mul (x := n) (a := 2 ^ w) (b := 2)
            have b := Nat.mod_mul (x := m) (a := 2 ^ w) (b := 2)
            rw [← pow_succ] at a b
            have hn : n % 2 ^ (w+1) / 2 ^ w = n / 2 ^ w % 2 := by
              rw [a, Nat.add_mul_div_left _ _ (Nat.two_pow_pos w), Nat.div_eq_of_lt (Nat.mod_lt _ (Nat.two_pow_pos w))]; simp
            have hm : m % 2 ^ (w+1) / 2 ^ w = m / 2 ^ w % 2 := by
              rw [b, Nat.add_mul_div_left _ _ (Nat.two_pow_pos w), Nat.div_eq_of_lt (Nat.mod_lt _ (Nat.two_pow_pos w))]; simp
            rw [← hn, ← hm, h]
          have h2 : n % 2 ^ w = m % 2 ^ w := by
            have a : n % 2 ^ (w+1) % 2 ^ w = n % 2 ^ w := Nat.mod_mod_of_dvd _ ⟨2, pow_succ 2 w⟩
            have b : m % 2 ^ (w+1) % 2 ^ w = m % 2 ^ w := Nat.mod_mod_of_dvd _ ⟨2, pow_succ 2 w⟩
            rw [← a, ← b, h]
          rw [h1, ih n m h2]
      exact gen _ _ _ (by simp)
    cases b with
    | true =>
      simp only [if_true]
      congr 1
      · rw [show (2 ^ l.length + Bv.uv l) / 2 ^ l.length = 1 by
          rw [Nat.add_div_left _ hp, Nat.div_eq_of_lt hl]]
        rfl
      · have := e 1
        rw [Nat.one_mul] at this
        rw [this, digitsOf_uv l]
    | false =>
      simp only [Bool.false_eq_true, if_false, Nat.zero_add]
      congr 1
      · rw [Nat.div_eq_of_lt hl]
        rfl
      · exact digitsOf_uv l

theorem bits_vars (ns : List String) (η : Env) : Bv.bits (ns.map (Fn.var o)) η = ns.map η := by
  unfold Bv.bits
  rw [List.map_map]
  exact List.map_congr_left fun n _ => (Fn.var_ev n η : (Fn.var o n).ev η = η n)

/-- The value of a vector of index variables. -/
theorem sv_index (ns : List String) (η : Env) : Bv.sv (Fn.ff o :: ns.map (Fn.var o)) η = Bv.uv (ns.map η) := by
  unfold Bv.sv
  rw [Bv.bits_cons, bits_vars]
  exact Bv.tc_zcons _

theorem sv_load {ns : List String} (h : ns.Nodup) {k : Nat} (hk : k < 2 ^ ns.length) (η : Env) :
    Bv.sv (Fn.ff o :: ns.map (Fn.var o)) (load ns k η) = k := by
  rw [sv_index, map_load k η h, (uv_digitsOf _ _).1, Nat.mod_eq_of_lt hk]

theorem sv_index_load {ns ms : List String} (η : Env) (k : Nat) (h : ∀ n ∈ ns, n ∉ ms) :
    Bv.sv (Fn.ff o :: ns.map (Fn.var o)) (load ms k η) = Bv.sv (Fn.ff o :: ns.map (Fn.var o)) η := by
  rw [sv_index, sv_index, List.map_congr_left fun n hn => load_notin (h n hn)]

/-- Every assignment has some number in the variables. -/
theorem load_self {ns : List String} (h : ns.Nodup) (η : Env) : load ns (Bv.uv (ns.map η)) η = η := by
  funext n
  by_cases hn : n ∈ ns
  · have h1 := map_load (Bv.uv (ns.map η)) η h
    have h2 := digitsOf_uv (ns.map η)
    rw [List.length_map] at h2
    rw [h2] at h1
    exact List.map_inj_left.1 h1 n hn
  · exact load_notin hn

theorem uvector_eq {base : String} {n : Nat} (hn : 0 < n) :
    uvector o base n = Fn.ff o :: (idxNames base n).map (Fn.var o) := by
  have hne : idxNames base n ≠ [] := by
    intro h
    have := congrArg List.length h
    simp [idxNames] at this
    omega
  unfold uvector Bv.bvZX
  obtain ⟨a, l, h⟩ := List.exists_cons_of_ne_nil hne
  rw [h]
  have hz : ∀ l' : List (Fn o), Bv.trim (Bv.Fml.zero :: Fn.var o a :: l') = Fn.ff o :: Fn.var o a :: l' := by
    intro l'
    rw [Bv.trim, if_neg]
    · rfl
    · intro hh
      have := Bv.Fml.eqb_sound _ _ hh (fun _ => true)
      have e : Bv.Fml.den (Fn.var o a) (fun _ => true) = true := Fn.var_ev a _
      rw [e] at this
      exact absurd this (by show false ≠ true; simp)
  simp only [List.map_cons]
  rw [hz]
  exact hz _

theorem toDigits_inj : ∀ {a b : Nat}, Nat.toDigits 10 a = Nat.toDigits 10 b → a = b := by
  intro a
  induction a using Nat.strong_induction_on with
  | _ a ih =>
    intro b h
    have hd : ∀ x y : Fin 10, Nat.digitChar x = Nat.digitChar y → x = y := by decide
    rw [Nat.toDigits_eq_if (n := a) (by omega), Nat.toDigits_eq_if (n := b) (by omega)] at h
    have hl : ∀ c, 0 < (Nat.toDigits 10 c).length := fun c => Nat.length_toDigits_pos
    split at h <;> split at h
    · next h1 h2 =>
      have := hd ⟨a, h1⟩ ⟨b, h2⟩ (by simpa using h)
      simpa using this
    · have := congrArg List.length h
      simp at this
    · have := congrArg List.length h
      simp at this
    · next h1 h2 =>
      have h3 := List.append_inj' h rfl
      have h4 := ih (a / 10) (by omega) h3.1
      have h5 := hd ⟨a % 10, by omega⟩ ⟨b % 10, by omega⟩ (by simpa using h3.2)
      simp at h5
      omega

theorem repr_inj {a b : Nat} (h : a.repr = b.repr) : a = b := by
  have := congrArg String.toList h
  rw [Nat.toList_repr, Nat.toList_repr] at this
  exact toDigits_inj this

theorem idxNames_nodup (base : String) (n : Nat) : (idxNames base n).Nodup := by
  unfold idxNames
  refine List.Nodup.map ?_ (List.nodup_reverse.2 List.nodup_range)
  intro a b h
  have := congrArg String.toList h
  simp only [String.toList_append] at this
  have h1 := List.append_cancel_right this
  have h2 := List.append_cancel_left h1
  exact repr_inj (String.toList_inj.1 h2)

theorem idxNames_length (base : String) (n : Nat) : (idxNames base n).length = n := by simp [idxNames]

theorem takeWhile_base {l m : List Char} (h : '[' ∉ l) : (l ++ '[' :: m).takeWhile (fun c => !decide (c = '[')) = l := by
  rw [List.takeWhile_append_of_pos]
  · simp
  · intro c hc
    have : c ≠ '[' := fun e => h (e ▸ hc)
    simp [this]

/-- Names with different bases. -/
theorem idxNames_disjoint {a b : String} {n m : Nat} (ha : '[' ∉ a.toList) (hb : '[' ∉ b.toList) (h : a ≠ b) :
    ∀ x ∈ idxNames a n, x ∉ idxNames b m := by
  intro x hx hy
  unfold idxNames at hx hy
  obtain ⟨i, _, rfl⟩ := List.mem_map.1 hx
  obtain ⟨j, _, hj⟩ := List.mem_map.1 hy
  have := congrArg (fun s => s.toList.takeWhile (fun c => !decide (c = '['))) hj
  simp only [String.toList_append, List.append_assoc, show "[".toList = ['['] from rfl, List.cons_append, List.nil_append] at this
  rw [takeWhile_base ha, takeWhile_base hb] at this
  exact h (String.toList_inj.1 this).symm

/-! ### Substitutions -/

theorem depends_var (n : String) : Fn.depends [Fn.var o n] = [n] := by
  have hd : (Fn.var o n).1 = .node n (.leaf true) (.leaf false) := by
    simp [Fn.var, Fn.make, sortNames, ins, Dd.build, Dd.mk, Env.set]
  simp [Fn.depends, hd, Dd.vars, sortNames, ins]

theorem getVars (ns : List String) : (ns.map (Fn.var o)).mapM getVar = some ns := by
  induction ns with
  | nil => rfl
  | cons n ns ih =>
    rw [List.map_cons, List.mapM_cons, ih]
    simp [getVar, depends_var]

/-- `mk_sub` makes each index variable a bit of the new index. -/
theorem mkSub_eq (ns : List String) (new : List (Fn o)) :
    ∃ fs, mkSub (Fn.ff o :: ns.map (Fn.var o)) new = .ok (ns.zip fs) ∧ fs.length = ns.length ∧
      (∀ f ∈ fs, f = Fn.ff o ∨ f ∈ new) ∧
      ∀ η, 0 ≤ Bv.sv new η → Bv.sv new η < 2 ^ ns.length → fs.map (fun f => f.ev η) = digitsOf ns.length (Bv.sv new η).toNat := by
  unfold mkSub
  simp only [List.tail_cons, getVars, Out.ofOption, Out.bind]
  refine ⟨_, rfl, by simp, ?_, ?_⟩
  · intro f hf
    have := List.mem_of_mem_drop hf
    rcases List.mem_append.1 this with h | h
    · exact .inl (List.eq_of_mem_replicate h)
    · exact .inr h
  · intro η h0 h1
    have e0 : ((List.replicate ns.length (Fn.ff o) ++ new).map fun f => f.ev η) =
        List.replicate ns.length false ++ Bv.bits new η := by
      rw [List.map_append, List.map_replicate]
      rfl
    rw [List.map_drop, e0]
    have hlen : (List.replicate ns.length (Fn.ff o) ++ new).length - ns.length = new.length := by simp
    rw [hlen]
    generalize hL : List.replicate ns.length false ++ Bv.bits new η = L
    have hLl : L.length = ns.length + new.length := by rw [← hL]; simp
    have hu : Bv.uv L = (Bv.sv new η).toNat := by
      rw [← hL, Bv.uv_append, Bv.uv_replicate_false]
      have := Bv.tc_nonneg_uv _ h0
      unfold Bv.sv
      rw [this]
      simp
    have hsplit : Bv.uv L = Bv.uv (L.take new.length) * 2 ^ (L.drop new.length).length + Bv.uv (L.drop new.length) := by
      rw [← Bv.uv_append, List.take_append_drop]
    have hdl : (L.drop new.length).length = ns.length := by rw [List.length_drop, hLl]; omega
    rw [hdl] at hsplit
    have hlt := Bv.uv_lt (L.drop new.length)
    rw [hdl] at hlt
    have hb : Bv.uv L < 2 ^ ns.length := by
      rw [hu]
      have : ((Bv.sv new η).toNat : Int) < 2 ^ ns.length := by rw [Int.toNat_of_nonneg h0]; exact h1
      exact_mod_cast this
    have hz : Bv.uv (L.take new.length) = 0 := by
      by_contra hc
      have : 2 ^ ns.length ≤ Bv.uv (L.take new.length) * 2 ^ ns.length := Nat.le_mul_of_pos_left _ (Nat.pos_of_ne_zero hc)
      omega
    rw [hz, Nat.zero_mul, Nat.zero_add] at hsplit
    rw [← hu, hsplit]
    have := digitsOf_uv (L.drop new.length)
    rw [hdl] at this
    exact this.symm

theorem under_zip (σ : List (String × Fn o)) (η : Env) (a : Nat) : ∀ (ns : List String) (fs : List (Fn o)),
    fs.map (fun f => f.ev η) = digitsOf ns.length a → Fn.under (ns.zip fs ++ σ) η = load ns a (Fn.under σ η)
  | [], fs, _ => by simp [load]
  | n :: ns, [], h => by simp [digitsOf] at h
  | n :: ns, f :: fs, h => by
    simp only [List.map_cons, List.length_cons, digitsOf, List.cons.injEq] at h
    rw [List.zip_cons_cons, List.cons_append, under_cons, under_zip σ η a ns fs h.2, h.1]
    rfl

theorem sv_substitute (σ : List (String × Fn o)) {l : List (Fn o)} (h : (σ.map Prod.fst).Nodup) (hl : l ≠ []) :
    ∃ r, substitute σ l = .ok r ∧ r ≠ [] ∧ ∀ η, Bv.sv r η = Bv.sv l (Fn.under σ η) := by
  unfold substitute
  rw [if_pos h]
  have hm : l.map (Fn.subst σ) ≠ [] := by simpa using hl
  refine ⟨_, rfl, Bv.trim_ne_nil _ hm, fun η => ?_⟩
  show Bv.sv (Bv.trim (l.map (Fn.subst σ))) η = _
  rw [Bv.sv_trim]
  unfold Bv.sv Bv.bits
  rw [List.map_map]
  refine congrArg _ (List.map_congr_left fun f _ => ?_)
  exact Fn.subst_ev σ f η

theorem zip_fst {ns : List String} {fs : List (Fn o)} (h : fs.length = ns.length) : (ns.zip fs).map Prod.fst = ns := by
  rw [List.map_fst_zip]
  omega

/-- The value of a vector depends on the variables of its functions only. -/
theorem sv_agree {l : List (Fn o)} {η ζ : Env} (h : ∀ n ∈ Fn.depends l, η n = ζ n) : Bv.sv l η = Bv.sv l ζ :=
  Sum.sv_same fun f hf => Fn.ev_depends hf h

theorem intBv_ne_nil (k : Int) : intBv o k ≠ [] := by
  unfold intBv
  split
  · exact Bv.trim_ne_nil _ (by simp)
  · exact Bv.trim_ne_nil _ (by simp)

theorem width_ubits {n : Nat} (hn : 0 < n) : ∃ w, ubits n = .ok w ∧ Width n w := by
  obtain ⟨w, h1, h2, h3, h4⟩ := (c91_ubits ((n : Int) - 1)).1 (by omega)
  refine ⟨w, by simp [ubits, h1, Out.ofOption], h2, ?_, fun w' h5 h6 => h4 w' h5 ?_⟩
  · have : ((n : Int)) ≤ 2 ^ w := by omega
    exact_mod_cast this
  · have : ((n : Int)) ≤ 2 ^ w' := by exact_mod_cast h6
    omega

end Voss.Smat

import Verif.Sum.Spec
import Verif.Slist.Lemmas
import Verif.Bv.BitLemmas
import Mathlib.Data.List.Dedup
import Mathlib.Tactic.Ring
/- Lemmas for C100. -/
namespace Voss.Sum
open Voss.Pre

variable {o : Order}

/-! ### Sums over assignments -/

theorem total_congr {g g' : Env → Int} : ∀ (l : List String) (η : Env), (∀ η, g η = g' η) → total l g η = total l g' η
  | [], η, h => h η
  | v :: l, η, h => by simp only [total]; rw [total_congr l _ h, total_congr l _ h]

theorem total_add (g g' : Env → Int) : ∀ (l : List String) (η : Env),
    total l (fun η => g η + g' η) η = total l g η + total l g' η
  | [], _ => rfl
  | v :: l, η => by simp only [total]; rw [total_add g g' l, total_add g g' l]; ring

theorem total_mul (c : Int) (g : Env → Int) : ∀ (l : List String) (η : Env),
    total l (fun η => g η * c) η = total l g η * c
  | [], _ => rfl
  | v :: l, η => by simp only [total]; rw [total_mul c g l, total_mul c g l]; ring

theorem total_sub (g g' : Env → Int) (l : List String) (η : Env) :
    total l (fun η => g η - g' η) η = total l g η - total l g' η := by
  have h := total_add g (fun η => g' η * (-1)) l η
  rw [total_mul] at h
  rw [show (fun η => g η - g' η) = fun η => g η + g' η * (-1) from funext fun η => by ring, h]
  ring

theorem total_zero : ∀ (l : List String) (η : Env), total l (fun _ => 0) η = 0
  | [], _ => rfl
  | v :: l, η => by simp only [total]; rw [total_zero l, total_zero l]; rfl

theorem total_const (c : Int) : ∀ (l : List String) (η : Env), total l (fun _ => c) η = c * 2 ^ l.length
  | [], _ => by simp [total]
  | v :: l, η => by simp only [total, List.length_cons]; rw [total_const c l, total_const c l]; ring

theorem set_comm {η : Env} {v w : String} {a b : Bool} (h : v ≠ w) : (η.set v a).set w b = (η.set w b).set v a := by
  funext n
  simp only [Env.set]
  split <;> split <;> simp_all

theorem total_perm (g : Env → Int) {l m : List String} (h : l.Perm m) : ∀ η, total l g η = total m g η := by
  induction h with
  | nil => intro η; rfl
  | cons x _ ih => intro η; simp only [total]; rw [ih, ih]
  | swap x y l =>
    intro η
    by_cases hxy : x = y
    · subst hxy; rfl
    · simp only [total]
      rw [set_comm (v := y) (w := x) (Ne.symm hxy), set_comm (v := y) (w := x) (Ne.symm hxy),
        set_comm (v := y) (w := x) (Ne.symm hxy), set_comm (v := y) (w := x) (Ne.symm hxy)]
      ring
  | trans _ _ ih1 ih2 => intro η; rw [ih1, ih2]

theorem set_self (η : Env) (v : String) : η.set v (η v) = η := by
  funext n
  simp only [Env.set]
  split
  · next h => rw [h]
  · rfl

/-- A value of a variable that is not summed over. -/
theorem total_under (g : Env → Int) (v : String) (b : Bool) : ∀ (l : List String) (η : Env), v ∉ l →
    total l (fun η => g (η.set v b)) η = total l g (η.set v b)
  | [], _, _ => rfl
  | w :: l, η, h => by
    have hw : w ≠ v := fun e => h (by simp [e])
    simp only [total]
    rw [total_under g v b l _ fun e => h (by simp [e]), total_under g v b l _ fun e => h (by simp [e]),
      set_comm (η := η) hw, set_comm (η := η) hw]

/-! ### Where a walk is -/

/-- Sorting out: lists in the order with the same elements are the same. -/
theorem sorted_ext {l m : List String} (hl : Sorted o l) (hm : Sorted o m) (h : ∀ n, n ∈ l ↔ n ∈ m) : l = m := by
  refine List.Perm.eq_of_pairwise (le := fun a b => o.pos a < o.pos b) ?_ hl hm ?_
  · intro a b _ _ h1 h2; omega
  · exact (List.perm_ext_iff_of_nodup hl.nodup hm.nodup).2 h

/-- What is left of the free variables before the variables `l` are walked through. -/
def fsAt (fr : String → Bool) (none : Bool) (l : List String) : Conj := if none then .one else .rest (l.filter fr)

/-- Record 0 of the table does not have the number of a variable behind all free variables. -/
def Harmless (z : Option String) (fr : String → Bool) (none : Bool) (l : List String) : Prop :=
  none = true ∨ ∀ v m, v :: m <:+ l → (v :: m).filter fr = [] → z ≠ some v

theorem Harmless.tail {z : Option String} {fr : String → Bool} {none : Bool} {v : String} {l : List String}
    (h : Harmless z fr none (v :: l)) : Harmless z fr none l := by
  rcases h with h | h
  · exact .inl h
  · exact .inr fun w m hw hf => h w m (hw.trans (List.suffix_cons v l)) hf

theorem getNext_at {z : Option String} {fr : String → Bool} {none : Bool} {v : String} {l : List String}
    (hz : Harmless z fr none (v :: l)) (hn : (v :: l).Nodup) (hnone : none = true → ∀ w ∈ v :: l, fr w = false) :
    getNext z (.rest (v :: l)) (fsAt fr none (v :: l)) = (fr v, .rest l, fsAt fr none l) := by
  unfold getNext fsAt
  cases none with
  | true => simp [Conj.next, hnone rfl v (by simp)]
  | false =>
    simp only [Bool.false_eq_true, if_false, reduceCtorEq]
    cases hv : fr v with
    | true => simp [hv, Conj.var, Conj.next]
    | false =>
      rw [List.filter_cons_of_neg (by simp [hv])]
      have : Conj.var z (.rest (l.filter fr)) ≠ Conj.var z (.rest (v :: l)) := by
        cases hf : l.filter fr with
        | nil =>
          rcases hz with hz | hz
          · exact absurd hz (by simp)
          · exact hz v l (List.suffix_refl _) (by rw [List.filter_cons_of_neg (by simp [hv]), hf])
        | cons w m =>
          have hw : w ∈ l := (List.mem_filter.1 (hf ▸ List.mem_cons_self : w ∈ l.filter fr)).1
          simp only [Conj.var, ne_eq, Option.some.injEq]
          rintro rfl
          exact (List.nodup_cons.1 hn).1 hw
      rw [if_neg this]
      simp [Conj.next]

/-- The variables summed over. -/
abbrev bound (fr : String → Bool) (l : List String) : List String := l.filter fun v => !fr v

theorem bound_cons (fr : String → Bool) (v : String) (l : List String) :
    (bound fr (v :: l)).length = (if fr v then 0 else 1) + (bound fr l).length := by
  unfold bound
  cases h : fr v <;> simp [h, Nat.add_comm]

theorem zeros_at {z : Option String} {fr : String → Bool} {none : Bool} : ∀ {l : List String},
    Harmless z fr none l → l.Nodup → (none = true → ∀ w ∈ l, fr w = false) →
    zerosList z l (fsAt fr none l) = (bound fr l).length
  | [], _, _, _ => rfl
  | v :: l, hz, hn, hnone => by
    simp only [zerosList]
    rw [getNext_at hz hn hnone, zeros_at hz.tail (List.nodup_cons.1 hn).2 fun h w hw => hnone h w (by simp [hw]), bound_cons]

theorem skip_at {z : Option String} {fr : String → Bool} {none : Bool} {v : String} : ∀ {l : List String},
    Harmless z fr none l → l.Nodup → (none = true → ∀ w ∈ l, fr w = false) → v ∈ l →
    ∃ pre post, l = pre ++ v :: post ∧
      skip z v l (fsAt fr none l) = some ((bound fr pre).length, v :: post, fsAt fr none (v :: post))
  | [], _, _, _, h => absurd h (by simp)
  | w :: l, hz, hn, hnone, h => by
    by_cases hw : w = v
    · subst hw
      exact ⟨[], l, rfl, by simp [skip]⟩
    · obtain ⟨pre, post, h1, h2⟩ := skip_at hz.tail (List.nodup_cons.1 hn).2 (fun h w hw => hnone h w (by simp [hw]))
        ((List.mem_cons.1 h).resolve_left (Ne.symm hw))
      refine ⟨w :: pre, post, by rw [h1]; rfl, ?_⟩
      rw [skip, if_neg hw]
      dsimp only
      rw [getNext_at hz hn hnone, h2, bound_cons]
      rfl

/-! ### Bit-vectors -/

theorem sv_shiftLeft {l : List (Fn o)} (h : l ≠ []) (n : Nat) (η : Env) : Bv.sv (shiftLeft l n) η = Bv.sv l η * 2 ^ n := by
  unfold shiftLeft Bv.sv
  rw [Bv.bits_append, Bv.tc_append _ _ (Bv.bits_ne_nil h η), Bv.bits_replicate]
  have : Bv.Fml.den (Fn.ff o) η = false := rfl
  rw [this, Bv.uv_replicate_false]
  simp

theorem shiftLeft_ne_nil {l : List (Fn o)} (h : l ≠ []) (n : Nat) : shiftLeft l n ≠ [] := by
  unfold shiftLeft
  simp [h]

theorem sv_add {a b : List (Fn o)} (ha : a ≠ []) (hb : b ≠ []) (η : Env) : Bv.sv (add a b) η = Bv.sv a η + Bv.sv b η := by
  unfold add
  rw [Bv.sv_genAdd false _ _ (Bv.sx2_length a b) (Bv.sxTo_ne_nil ha)]
  have e1 : Bv.sv (Bv.sx2 a b).1 η = Bv.sv a η := Bv.sv_sxTo _ _ ha η
  have e2 : Bv.sv (Bv.sx2 a b).2 η = Bv.sv b η := Bv.sv_sxTo _ _ hb η
  rw [e1, e2]
  rfl

theorem add_ne_nil (a b : List (Fn o)) : add a b ≠ [] := Bv.genAdd_ne_nil _ _ _

/-! ### The recursion -/

/-- One when the tree is true. -/
abbrev ind (d : Dd) (η : Env) : Int := if d.ev η then 1 else 0

/-- The cache has the counts over the variables from the top variable of each function on. -/
def Good (o : Order) (fr : String → Bool) (all : List String) (t : Cache o) : Prop :=
  ∀ d r, (d, r) ∈ t → ∀ v h l pre post, d = .node v h l → all = pre ++ v :: post →
    r ≠ [] ∧ ∀ η, Bv.sv r η = total (bound fr (v :: post)) (ind d) η

theorem mem_of_lookup {α β : Type} [DecidableEq α] {k : α} {r : β} : ∀ {t : List (α × β)}, t.lookup k = some r → (k, r) ∈ t
  | [], h => by simp at h
  | (k', r') :: t, h => by
    rw [List.lookup_cons] at h
    by_cases hk : k = k'
    · subst hk; simp at h; simp [h]
    · rw [show (k == k') = false from by simpa using hk] at h
      exact List.mem_cons_of_mem _ (mem_of_lookup h)

/-- Variables that the function does not depend on double the count. -/
theorem total_skip (d : Dd) (fr : String → Bool) (post : List String) : ∀ (pre : List String) (η : Env),
    (∀ v ∈ pre, v ∉ d.vars) → (∀ v ∈ pre, v ∉ post) →
    total (bound fr (pre ++ post)) (ind d) η = total (bound fr post) (ind d) η * 2 ^ (bound fr pre).length
  | [], η, _, _ => by simp [bound]
  | v :: pre, η, h, h' => by
    have ih := fun η => total_skip d fr post pre η (fun w hw => h w (by simp [hw])) (fun w hw => h' w (by simp [hw]))
    rw [bound_cons]
    cases hv : fr v with
    | true =>
      simp only [List.cons_append]
      rw [bound, List.filter_cons_of_neg (by simp [hv])]
      rw [ih]
      simp
    | false =>
      simp only [List.cons_append]
      rw [bound, List.filter_cons_of_pos (by simp [hv])]
      simp only [total]
      rw [ih, ih]
      have key : ∀ b, total (bound fr post) (ind d) (η.set v b) = total (bound fr post) (ind d) η := by
        intro b
        rw [← total_under _ v b _ _ (fun e => h' v (by simp) (List.mem_filter.1 e).1)]
        refine total_congr _ _ fun ζ => ?_
        unfold ind
        rw [Dd.ev_vars d (η := ζ.set v b) (ζ := ζ)]
        intro n hn
        have : n ≠ v := fun e => h v (by simp) (e ▸ hn)
        simp [Env.set, this]
      rw [key, key]
      simp only [Bool.false_eq_true, if_false, pow_add, pow_one]
      ring

theorem mem_tail_of_lt {v n : String} {post : List String} (hs : Sorted o (v :: post)) (hn : n ∈ v :: post)
    (h : o.pos v < o.pos n) : n ∈ post := by
  rcases List.mem_cons.1 hn with rfl | hn
  · omega
  · exact hn

theorem count_spec {z : Option String} {fr : String → Bool} {none : Bool} {all : List String} (hall : Sorted o all)
    (hz : Harmless z fr none all) (hnone : none = true → ∀ w ∈ all, fr w = false) (d : Dd) :
    ∀ (k : Nat) (l : List String) (t : Cache o), d.Ok o k → l <:+ all → (∀ n ∈ d.vars, n ∈ l) → Good o fr all t →
    ∃ r t', count z d (.rest l) (fsAt fr none l) t = some (r, t') ∧ Good o fr all t' ∧ r ≠ [] ∧
      ∀ η, Bv.sv r η = total (bound fr l) (ind d) η := by
  induction d with
  | leaf b =>
    intro k l t hd hl hv ht
    have hl' : Harmless z fr none l := by
      rcases hz with hz | hz
      · exact .inl hz
      · exact .inr fun v m hm => hz v m (hm.trans hl)
    cases b with
    | false =>
      refine ⟨_, _, by rw [count], ht, by simp, fun η => ?_⟩
      have : (fun η => ind (.leaf false) η) = fun _ => (0 : Int) := by funext η; simp [ind, Dd.ev]
      rw [show ind (.leaf false) = fun _ => (0 : Int) from this, total_zero]
      exact sv_zero η
    | true =>
      refine ⟨_, _, by rw [count], ht, shiftLeft_ne_nil (by simp) _, fun η => ?_⟩
      rw [show ind (.leaf true) = fun _ => (1 : Int) from by funext η; simp [ind, Dd.ev], total_const,
        sv_shiftLeft (by simp)]
      simp only [zeros]
      rw [zeros_at hl' (hall.nodup.sublist hl.sublist) fun h w hw => hnone h w (hl.subset hw)]
      have : Bv.sv [Fn.ff o, Fn.tt o] η = 1 := by
        have e1 : Bv.Fml.den (Fn.ff o) η = false := rfl
        have e2 : Bv.Fml.den (Fn.tt o) η = true := rfl
        simp [Bv.sv, e1, e2, Bv.tc, Bv.uv]
      rw [this]
  | node v h lo ihh ihl =>
    intro k l t hd hl hv ht
    have hl' : Harmless z fr none l := by
      rcases hz with hz | hz
      · exact .inl hz
      · exact .inr fun v m hm => hz v m (hm.trans hl)
    have hln : l.Nodup := hall.nodup.sublist hl.sublist
    have hls : Sorted o l := List.Pairwise.sublist hl.sublist hall
    obtain ⟨pre, post, h1, h2⟩ := skip_at hl' hln (fun h w hw => hnone h w (hl.subset hw))
      (hv v (by simp [Dd.vars]))
    have hsuf : v :: post <:+ all := by
      refine List.IsSuffix.trans ?_ hl
      rw [h1]
      exact List.suffix_append _ _
    have hsuf' : post <:+ all := (List.suffix_cons v post).trans hsuf
    have hps : Sorted o (v :: post) := List.Pairwise.sublist hsuf.sublist hall
    have hpre : ∀ w ∈ pre, o.pos w < o.pos v := by
      intro w hw
      rw [h1] at hls
      exact (List.pairwise_append.1 hls).2.2 w hw v (by simp)
    have hd0 : (Dd.node v h lo).Ok o (o.pos v) := ⟨le_refl _, hd.2⟩
    have hvars : ∀ n ∈ (Dd.node v h lo).vars, n ∈ v :: post := by
      intro n hn
      have := hv n hn
      rw [h1] at this
      rcases List.mem_append.1 this with hp | hp
      · have h3 := (Dd.vars_matter hd0 hn).1
        have := hpre n hp
        omega
      · exact hp
    have hpv : ∀ w ∈ pre, w ∉ (Dd.node v h lo).vars := fun w hw e => by
      have h3 := (Dd.vars_matter hd0 e).1
      have := hpre w hw
      omega
    have hpp : ∀ w ∈ pre, w ∉ v :: post := fun w hw e => by
      rw [h1] at hln
      exact (List.nodup_append.1 hln).2.2 w hw w e rfl
    have hnext := getNext_at (z := z) (fr := fr) (none := none) (v := v) (l := post)
      (by
        rcases hz with hz | hz
        · exact .inl hz
        · exact .inr fun v m hm => hz v m (hm.trans hsuf))
      (hall.nodup.sublist hsuf.sublist) (fun h w hw => hnone h w (hsuf.subset hw))
    have fin : ∀ r : List (Fn o), r ≠ [] → (∀ η, Bv.sv r η = total (bound fr (v :: post)) (ind (.node v h lo)) η) →
        shiftLeft r (bound fr pre).length ≠ [] ∧
        ∀ η, Bv.sv (shiftLeft r (bound fr pre).length) η = total (bound fr l) (ind (.node v h lo)) η := by
      intro r hr hs
      refine ⟨shiftLeft_ne_nil hr _, fun η => ?_⟩
      rw [sv_shiftLeft hr, hs, h1, total_skip _ _ _ _ _ hpv hpp]
    rw [count]
    simp only [h2]
    cases hlk : t.lookup (.node v h lo) with
    | some r =>
      obtain ⟨pp, hpp'⟩ := hsuf
      obtain ⟨g1, g2⟩ := ht _ _ (mem_of_lookup hlk) v h lo pp post rfl hpp'.symm
      obtain ⟨f1, f2⟩ := fin r g1 g2
      exact ⟨_, _, rfl, ht, f1, f2⟩
    | none =>
      dsimp only
      rw [hnext]
      obtain ⟨hk, hne, hh, hlo⟩ := hd
      have sub : ∀ e : Dd, e.Ok o (o.pos v + 1) → (∀ n ∈ e.vars, n ∈ (Dd.node v h lo).vars) → ∀ n ∈ e.vars, n ∈ post := by
        intro e he hev n hn
        refine mem_tail_of_lt hps (hvars n (hev n hn)) ?_
        have := (Dd.vars_matter he hn).1
        omega
      obtain ⟨hr, t1, a1, a2, a3, a4⟩ := ihh _ post t hh hsuf' (sub h hh fun n hn => by simp [Dd.vars, hn]) ht
      obtain ⟨lr, t2, b1, b2, b3, b4⟩ := ihl _ post t1 hlo hsuf' (sub lo hlo fun n hn => by simp [Dd.vars, hn]) a2
      dsimp only
      rw [a1]
      simp only [Option.bind_some]
      rw [b1]
      simp only [Option.bind_some]
      have hvp : v ∉ post := (List.nodup_cons.1 (hall.nodup.sublist hsuf.sublist)).1
      have hvb : v ∉ bound fr post := fun e => hvp (List.mem_filter.1 e).1
      have hset : ∀ (e : Dd) (c : Bool), e.Ok o (o.pos v + 1) → ∀ η,
          total (bound fr post) (ind e) (η.set v c) = total (bound fr post) (ind e) η := by
        intro e c he η
        rw [← total_under _ v c _ _ hvb]
        exact total_congr _ _ fun ζ => by unfold ind; rw [Dd.ev_set he]
      have hnode : ∀ (c : Bool) η, total (bound fr post) (ind (.node v h lo)) (η.set v c) =
          if c then total (bound fr post) (ind h) η else total (bound fr post) (ind lo) η := by
        intro c η
        rw [← total_under _ v c _ _ hvb]
        cases c with
        | true =>
          simp only [if_true]
          refine total_congr _ _ fun ζ => ?_
          have e : (Dd.node v h lo).ev (ζ.set v true) = h.ev ζ := by
            rw [← Dd.ev_set hh ζ true]
            simp [Dd.ev, Env.set]
          simp only [ind, e]
        | false =>
          simp only [Bool.false_eq_true, if_false]
          refine total_congr _ _ fun ζ => ?_
          have e : (Dd.node v h lo).ev (ζ.set v false) = lo.ev ζ := by
            rw [← Dd.ev_set hlo ζ false]
            simp [Dd.ev, Env.set]
          simp only [ind, e]
      have raw : (if fr v then Bv.iteList (Fn.var o v) hr lr else add hr lr) ≠ [] ∧
          ∀ η, Bv.sv (if fr v then Bv.iteList (Fn.var o v) hr lr else add hr lr) η =
            total (bound fr (v :: post)) (ind (.node v h lo)) η := by
        cases hv : fr v with
        | true =>
          refine ⟨Bv.iteList_ne_nil _ _ _ a3 b3, fun η => ?_⟩
          rw [if_pos rfl, Bv.sv_iteList _ _ _ a3 b3, bound, List.filter_cons_of_neg (by simp [hv])]
          have e : Bv.Fml.den (Fn.var o v) η = η v := Fn.var_ev v η
          rw [e, a4, b4]
          have := hnode (η v) η
          rw [set_self] at this
          exact this.symm
        | false =>
          refine ⟨add_ne_nil _ _, fun η => ?_⟩
          simp only [Bool.false_eq_true, if_false]
          rw [sv_add a3 b3, bound, List.filter_cons_of_pos (by simp [hv])]
          simp only [total]
          rw [hnode, hnode, a4, b4]
          simp
      obtain ⟨f1, f2⟩ := fin _ raw.1 raw.2
      refine ⟨_, _, rfl, ?_, f1, f2⟩
      intro d' r' hm v' h' l' pre' post' hd' hal
      rcases List.mem_cons.1 hm with he | hm
      · simp only [Prod.mk.injEq] at he
        obtain ⟨rfl, rfl⟩ := he
        simp only [Dd.node.injEq] at hd'
        obtain ⟨rfl, rfl, rfl⟩ := hd'
        obtain ⟨pp, hpp'⟩ := hsuf
        have hnd := hall.nodup
        have : post' = post := by
          have e : pp ++ v :: post = pre' ++ v :: post' := by rw [hpp', hal]
          rw [hal] at hnd
          have hnd2 := hall.nodup
          rw [← hpp'] at hnd2
          have i1 : v ∉ pre' := fun e => (List.nodup_append.1 hnd).2.2 v e v (by simp) rfl
          have i2 : v ∉ pp := fun e => (List.nodup_append.1 hnd2).2.2 v e v (by simp) rfl
          have d1 : (pre' ++ v :: post').dropWhile (fun w => w ≠ v) = v :: post' := by
            rw [List.dropWhile_append_of_pos (fun w hw => decide_eq_true (p := w ≠ v) fun e => i1 (e ▸ hw))]
            simp
          have d2 : (pp ++ v :: post).dropWhile (fun w => w ≠ v) = v :: post := by
            rw [List.dropWhile_append_of_pos (fun w hw => decide_eq_true (p := w ≠ v) fun e => i2 (e ▸ hw))]
            simp
          rw [← e, d2] at d1
          simpa using d1.symm
        subst this
        exact raw
      · exact b2 _ _ hm v' h' l' pre' post' hd' hal

end Voss.Sum

import Verif.ClusterDenseTotal

/-!
# Cluster graphs of dense categorical factors: executions

Where clusters share at most one variable, an execution with the operations of `Categorical` is an execution with
the corrected operations; for factors without zeros the two coincide.
-/

namespace Verif.CG
open Spec (override Asg sumOut)
open Classical
open Cat (WF Proper InRange)

/-! ### Executions with two sets of operations -/

section
variable {F V G : Type} {n m : Nat} {A B : Ops F V G}

theorem foldlM_transport {α β : Type} {f g : β → α → Py β} {L : List α} (P : β → Prop)
    (h : ∀ b a b', a ∈ L → P b → f b a = .ok b' → g b a = .ok b' ∧ P b') {b b' : β} (hb : P b)
    (hf : L.foldlM f b = .ok b') : L.foldlM g b = .ok b' ∧ P b' := by
  induction L generalizing b with
  | nil =>
    have : b = b' := by simpa [pure, Except.pure] using hf
    subst this
    exact ⟨rfl, hb⟩
  | cons a L ih =>
    rw [List.foldlM_cons] at hf
    obtain ⟨b1, h1, h2⟩ := py_bind_eq_ok.1 hf
    obtain ⟨h3, h4⟩ := h b a b1 (by simp) hb h1
    rw [List.foldlM_cons, h3]
    exact ih (fun b a b' ha => h b a b' (by simp [ha])) h4 h2

/-- Passing a message with other operations, if the receiver and the messages that are recomputed agree. -/
theorem pass_transport [Zero G] (hd : A.distVacuous = B.distVacuous) (hk : A.kl = B.kl) {g g' : Graph F V G n m} {q : Fin m}
    (hrecv : ∀ c, receive A (g.cl (g.path q).rcv) (g.path q).next = .ok c →
      receive B (g.cl (g.path q).rcv) (g.path q).next = .ok c)
    (hmk : ∀ c, receive A (g.cl (g.path q).rcv) (g.path q).next = .ok c → ∀ r ∈ g.out (g.path q).rcv, ∀ msg,
      makeMessage A (Function.update g.cl (g.path q).rcv c (g.path r).snd)
        (Function.update g.cl (g.path q).rcv c (g.path r).rcv).id = .ok msg →
      makeMessage B (Function.update g.cl (g.path q).rcv c (g.path r).snd)
        (Function.update g.cl (g.path q).rcv c (g.path r).rcv).id = .ok msg)
    (h : pass A g q = .ok g') : pass B g q = .ok g' := by
  unfold pass at h ⊢
  obtain ⟨c, hc, h⟩ := py_bind_eq_ok.1 h
  dsimp only
  rw [hrecv c hc, py_bind_ok]
  refine (foldlM_transport (fun h : Graph F V G n m => h.cl = Function.update g.cl (g.path q).rcv c ∧
    ∀ r, (h.path r).snd = (g.path r).snd ∧ (h.path r).rcv = (g.path r).rcv) ?_ ⟨rfl, fun r => ?_⟩ h).1
  · rintro b r b' hr ⟨hb1, hb2⟩ hb
    obtain ⟨p, hp, hb⟩ := py_bind_eq_ok.1 hb
    simp only [Except.ok.injEq] at hb
    subst hb
    obtain ⟨p1, p2, _⟩ := recompute_ok hp
    refine ⟨?_, hb1, fun s => ?_⟩
    · have : recompute B b.cl (b.path r) = .ok p := by
        unfold recompute at hp ⊢
        obtain ⟨msg, k1, hp⟩ := py_bind_eq_ok.1 hp
        have k2 : makeMessage B (b.cl (b.path r).snd) (b.cl (b.path r).rcv).id = .ok msg := by
          rw [hb1, (hb2 r).1, (hb2 r).2] at k1 ⊢
          exact hmk c hc r hr msg k1
        rw [k2, py_bind_ok]
        have : gainOf B (b.path r).prev msg = gainOf A (b.path r).prev msg := by
          unfold gainOf
          rw [hd, hk]
        rw [this]
        exact hp
      rw [this]
      rfl
    · dsimp only
      by_cases hs : s = r
      · subst hs
        rw [Function.update_self, p1, p2]
        exact hb2 s
      · rw [Function.update_of_ne hs]
        exact hb2 s
  · dsimp only
    by_cases hs : r = q
    · subst hs
      rw [Function.update_self]
      exact ⟨rfl, rfl⟩
    · rw [Function.update_of_ne hs]
      exact ⟨rfl, rfl⟩

theorem Run.transport [Zero G] {g0 g : Graph F V G n m} {tr : List (Fin m × F)}
    (hpass : ∀ tr g q g', Run B g0 tr g → CG.pass A g q = .ok g' → CG.pass B g q = .ok g') (hr : Run A g0 tr g) :
    Run B g0 tr g := by
  induction hr with
  | start => exact .start
  | pass q _ hp ih => exact .pass q ih (hpass _ _ q _ ih hp)
  | admin _ hs ih => exact .admin ih hs

theorem loop_transport [LinearOrder G] [Zero G] {g0 : Graph F V G n m} {tol : G}
    (hpass : ∀ tr g q g', Run B g0 tr g → pass A g q = .ok g' → pass B g q = .ok g') (k : Nat)
    {g g' : Graph F V G n m} {tr : List (Fin m × F)} (hr : Run B g0 tr g) (h : loop A tol k g = .ok g') :
    loop B tol k g = .ok g' := by
  induction k generalizing g tr with
  | zero => exact h
  | succ k ih =>
    unfold loop at h ⊢
    obtain ⟨⟨g2, stop⟩, hit, h⟩ := py_bind_eq_ok.1 h
    unfold iteration at hit
    obtain ⟨q, hq, hit⟩ := py_bind_eq_ok.1 hit
    obtain ⟨g1, hg1, hit⟩ := py_bind_eq_ok.1 hit
    have hB := hpass _ _ q _ hr hg1
    have hitB : iteration B tol g = .ok (g2, stop) := by
      unfold iteration
      rw [hq, py_bind_ok, hB, py_bind_ok]
      exact hit
    rw [hitB, py_bind_ok]
    split at h
    · rename_i hs
      rw [if_pos hs]
      exact h
    · rename_i hs
      rw [if_neg hs]
      have hr1 := Run.pass q hr hB
      obtain ⟨q', hq', hit⟩ := py_bind_eq_ok.1 hit
      simp only [Except.ok.injEq, Prod.mk.injEq] at hit
      refine ih (hr1.admin ?_) h
      rw [← hit.1]
      exact ⟨rfl, rfl, rfl, rfl, sortQueue_perm _⟩

theorem process_transport [LinearOrder G] [Zero G] {g0 : Graph F V G n m} {tol : G}
    (hpass : ∀ tr g q g', Run B g0 tr g → pass A g q = .ok g' → pass B g q = .ok g') (hn : n ≠ 1) {maxIter : Nat}
    {g g' : Graph F V G n m} {tr : List (Fin m × F)} (hr : Run B g0 tr g)
    (h : processGraph A tol maxIter g = .ok g') : processGraph B tol maxIter g = .ok g' := by
  unfold processGraph at h ⊢
  dsimp only at h ⊢
  rw [dif_neg hn] at h ⊢
  exact loop_transport hpass _ (hr.admin ⟨rfl, rfl, rfl, rfl, sortQueue_perm { g with dists := [] }⟩) h

end

/-! ### `cancel` -/

variable {hs : HashSeed} {C : Var → Nat} {N : Var → List AName} {f g r : Cat ℝ}

theorem bshape_length {s t u : List Nat} (h : Tensor.bshape s t = .ok u) : u.length = max s.length t.length := by
  unfold Tensor.bshape at h
  have key : ∀ (a b c : List Nat), a.length = b.length → Tensor.bshapeEq a b = .ok c → c.length = a.length := by
    intro a
    induction a with
    | nil =>
      intro b c hl hc
      simp only [Tensor.bshapeEq, Except.ok.injEq] at hc
      subst hc
      rfl
    | cons x a ih =>
      intro b c hl hc
      cases b with
      | nil => simp at hl
      | cons y b =>
        unfold Tensor.bshapeEq at hc
        obtain ⟨d, hd, hc⟩ := py_bind_eq_ok.1 hc
        have := ih b d (by simpa using hl) hd
        split at hc
        · simp only [Except.ok.injEq] at hc; subst hc; simp [this]
        · split at hc
          · simp only [Except.ok.injEq] at hc; subst hc; simp [this]
          · split at hc
            · simp only [Except.ok.injEq] at hc; subst hc; simp [this]
            · cases hc
  rw [key _ _ _ (by simp; omega) h]
  simp
  omega

/-- The zeros of a divisor with fewer dimensions are never patched: `cancel` raises or divides. -/
theorem cancel_divide (hf : DenseOk C N f) (hg : DenseOk C N g) (hd : g.vars.length < f.vars.length)
    (h : Cat.cancel f g = .ok r) : Cat.divide f g = .ok r := by
  unfold Cat.cancel at h
  obtain ⟨gt, h1, h⟩ := py_bind_eq_ok.1 h
  have hgt : gt = g.tensor := by
    unfold Cat.patchDivisor at h1
    obtain ⟨m, hm, h1⟩ := py_bind_eq_ok.1 h1
    unfold Tensor.zipOp at hm
    obtain ⟨sh, hsh, hm⟩ := py_bind_eq_ok.1 hm
    simp only [Except.ok.injEq] at hm
    have hl := bshape_length hsh
    dsimp only at h1
    split at h1
    · simpa using h1.symm
    · rw [if_pos] at h1
      · cases h1
      · right
        rw [← hm]
        unfold Tensor.ndim
        dsimp only
        rw [hl, hf.wf.ndim, hg.wf.ndim]
        omega
  subst hgt
  unfold Cat.divide
  rw [Cat.assertCards_eq hf.wf hg.wf, if_pos (hf.consistent hg), py_bind_ok]
  exact h

/-- The order of the variables of a product with a factor over one of them. -/
theorem multiply_vars {v : Var} (hn : f.vars.Nodup) (hv : v ∈ f.vars) (hgv : g.vars = [v])
    (h : Cat.multiply f g = .ok r) : r.vars = f.vars.filter (· ≠ v) ++ [v] := by
  unfold Cat.multiply at h
  obtain ⟨_, _, h⟩ := py_bind_eq_ok.1 h
  obtain ⟨⟨t, vs⟩, h1, h⟩ := py_bind_eq_ok.1 h
  obtain ⟨_, _, h⟩ := py_bind_eq_ok.1 h
  obtain ⟨ns, h2, h⟩ := py_bind_eq_ok.1 h
  rw [(Cat.names_follow h2 h).1]
  unfold Cat.tensorOp at h1
  rw [hgv] at h1
  split at h1
  · rename_i he
    obtain ⟨t', _, h1⟩ := py_bind_eq_ok.1 h1
    simp only [Except.ok.injEq, Prod.mk.injEq] at h1
    rw [← h1.2, he]
    simp
  · dsimp only at h1
    obtain ⟨_, _, h1⟩ := py_bind_eq_ok.1 h1
    obtain ⟨_, _, h1⟩ := py_bind_eq_ok.1 h1
    obtain ⟨_, _, h1⟩ := py_bind_eq_ok.1 h1
    obtain ⟨_, _, h1⟩ := py_bind_eq_ok.1 h1
    obtain ⟨_, _, h1⟩ := py_bind_eq_ok.1 h1
    simp only [Except.ok.injEq, Prod.mk.injEq] at h1
    rw [← h1.2]
    have e1 : [v].filter (fun u => decide (¬ (u ∈ f.vars ∧ u ∈ [v]))) = [] := by simp [hv]
    have e2 : f.vars.filter (fun u => decide (¬ (u ∈ f.vars ∧ u ∈ [v]))) = f.vars.filter (· ≠ v) := by
      apply List.filter_congr
      intro u hu
      simp [hu]
    have e3 : f.vars.filter (fun u => decide (u ∈ f.vars ∧ u ∈ [v])) = [v] := by
      rw [← filter_single hn hv]
      apply List.filter_congr
      intro u hu
      simp [hu]
    rw [e1, e2, e3, List.nil_append]

/-- `cancel` on a dividend that ends with the divisor's variable. -/
theorem cancel_transport (hC : ∀ v, 2 ≤ C v) {v : Var} {pre : List Var} (hf : DenseOk C N f) (hg : DenseOk C N g) (hgv : g.vars = [v])
    (hfv : f.vars = pre ++ [v]) (hsup : ∀ x, denseDen g x = 0 → denseDen f x = 0) (h : Cat.cancel f g = .ok r) :
    idealCancel f g = .ok r := by
  unfold idealCancel
  split
  · exact h
  · rename_i hne
    have hpre : pre ≠ [] := by
      rintro rfl
      exact hne ⟨by rw [hfv, hgv]; rfl, by rw [hfv]; simp⟩
    split
    · rename_i hz
      exfalso
      obtain ⟨x, hx, h0⟩ := hz
      -- extend the assignment to the other variables of the dividend
      have hc : ∃ y, f.InRange y ∧ y v = x v := by
        have hxv : x v < C v := hg.inRange.1 hx v (by rw [hgv]; simp)
        refine ⟨fun u => if u = v then x v else 0, hf.inRange.2 fun u hu => ?_, by simp⟩
        split
        · rename_i huv; rw [huv]; exact hxv
        · have := hC u; omega
      obtain ⟨y, hy, hyv⟩ := hc
      have hgy : g.InRange y := by
        intro u hu
        rw [hgv, List.mem_singleton] at hu
        subst hu
        rw [hyv]
        exact hx _ (by rw [hgv]; simp)
      have hgy0 : g.val y = .ninf := by
        rw [← h0]
        unfold Cat.val
        rw [hgv]
        simp [hyv]
      have hfy : f.val y = .ninf := (hf.den_zero hy).1 (hsup y ((hg.den_zero hgy).2 hgy0))
      rw [(Cat.C17_cancel_suffix f g hf.wf hg.wf pre hpre (by rw [hfv, hgv]) (hf.consistent hg)
        (hf.sameNames hg)).1 ⟨y, hy, hfy, hgy0⟩] at h
      cases h
    · refine cancel_divide hf hg ?_ h
      rw [hfv, hgv]
      have := List.length_pos_iff.2 hpre
      simp
      omega

/-- Without zeros, or with equal scopes, `cancel` does what it should. -/
theorem cancel_positive {v : Var} {pre : List Var} (hf : DenseOk C N f) (hg : DenseOk C N g) (hgv : g.vars = [v])
    (hfv : f.vars = pre ++ [v]) (hz : HasZero g → pre = []) : Cat.cancel f g = idealCancel f g := by
  unfold idealCancel
  split
  · rfl
  · rename_i hne
    have hpre : pre ≠ [] := by
      rintro rfl
      exact hne ⟨by rw [hfv, hgv]; rfl, by rw [hfv]; simp⟩
    replace hz : ¬ HasZero g := fun h => hpre (hz h)
    rw [if_neg hz]
    obtain ⟨r, h, _⟩ := (Cat.C17_cancel_suffix f g hf.wf hg.wf pre hpre (by rw [hfv, hgv]) (hf.consistent hg)
      (hf.sameNames hg)).2 (by
        rintro ⟨x, hx, _, h0⟩
        refine hz ⟨x, ?_, h0⟩
        refine hg.inRange.2 fun u hu => hf.inRange.1 hx u ?_
        rw [hgv] at hu
        rw [hfv]
        simp_all)
    rw [h, cancel_divide hf hg (by
      rw [hfv, hgv]
      have := List.length_pos_iff.2 hpre
      simp
      omega) h]

/-! ### Messages -/

theorem single_of {l : List Var} {v : Var} (hn : l.Nodup) (h : ∀ u, u ∈ l ↔ u ∈ [v]) : l = [v] := by
  have hp : l.Perm [v] := (List.perm_ext_iff_of_nodup hn (by simp)).2 h
  exact List.perm_singleton.1 hp

theorem length_one {l : List Var} (hne : l ≠ []) (h : l.length ≤ 1) : ∃ v, l = [v] := by
  match l, h with
  | [], _ => exact absurd rfl hne
  | [v], _ => exact ⟨v, rfl⟩

theorem idealMarginalize_eq {vrs : List Var} (h : vrs.length ≤ 1) :
    idealMarginalize hs f vrs = Cat.marginalize hs f vrs true := if_pos h

/-- Over a sepset of one variable the two sets of operations make the same message. -/
theorem makeMessage_eq (hC : ∀ v, 2 ≤ C v) {c : Cl (Cat ℝ) Nat} {nid : String} {sep vars : List Var}
    {special : Dict Var Nat} (hok : DenseOk C N c.factor) (hn : vars.Nodup)
    (hsp : c.special = some (subsetEvidence special vars)) (hsep : Dict.get? c.sepsets nid = some sep)
    (hlen : sep.length ≤ 1) (hne : sep ≠ []) (hsub : ∀ v ∈ sep, v ∈ c.factor.vars ∧ v ∉ Dict.keys special)
    (hrec : ∀ p, Dict.get? c.received nid = some p → DenseOk C N p ∧ ∀ v, v ∈ p.vars ↔ v ∈ sep) :
    makeMessage (denseOps hs) c nid = makeMessage (idealOps hs) c nid := by
  obtain ⟨v, rfl⟩ := length_one hne hlen
  have hk := keys_subsetEvidence special hn
  unfold makeMessage Dict.getItem
  rw [hsep]
  dsimp only
  rw [py_bind_ok, py_bind_ok]
  have e1 : specialReduced (denseOps hs) c = specialReduced (idealOps hs) c := rfl
  rw [e1]
  cases hred : specialReduced (idealOps hs) c with
  | error e => rfl
  | ok red =>
    rw [py_bind_ok, py_bind_ok]
    have hred' : Cat.reduce c.factor (Dict.keys (subsetEvidence special vars))
        ((Dict.values (subsetEvidence special vars)).map Int.ofNat) = .ok red := by
      unfold specialReduced at hred
      rw [hsp] at hred
      exact hred
    obtain ⟨r1, r2, _⟩ := (hok.red (by rw [hk]; exact hn.filter _) (by simp [Dict.keys, Dict.values])).2 red hred'
    have hvr : v ∈ red.vars := by
      refine (r2 v).2 ⟨(hsub v (by simp)).1, fun h => ?_⟩
      rw [hk, List.mem_filter] at h
      exact (hsub v (by simp)).2 (Dict.get?_isSome_iff.1 (Option.isSome_iff_exists.1 h.2))
    obtain ⟨M, m1, m2, m3, _⟩ := r1.marg (hs := hs) hC (vrs := [v]) (by simp) (by simpa using hvr)
    have m1' : (idealOps hs).marginalize red [v] = .ok M := m1
    have m1'' : (denseOps hs).marginalize red [v] = .ok M := by
      rw [idealMarginalize_eq (by simp)] at m1
      exact m1
    rw [m1', m1'', py_bind_ok, py_bind_ok]
    have : cancelReceived (denseOps hs) c nid M = cancelReceived (idealOps hs) c nid M := by
      unfold cancelReceived
      cases hp : Dict.get? c.received nid with
      | none => rfl
      | some p =>
        obtain ⟨p1, p2⟩ := hrec p hp
        have : p.vars = [v] := single_of p1.wf.nodup p2
        show Cat.cancel M p = idealCancel M p
        unfold idealCancel
        rw [if_pos ⟨by rw [m3, this], by rw [m3]; simp⟩]
    rw [this]

variable {n m : Nat} {evVars : List Var} {g0 : Graph (Cat ℝ) Nat EReal n m}

theorem sepOf_ne {w : Wired (idealOps hs) evVars g0} (hsne : ∀ i j s, sepset g0 i j = some s → s ≠ []) (q : Fin m) :
    sepOf g0 q ≠ [] := hsne _ _ _ (w.sepOf_eq q)

/-- The message along a path is the same for both sets of operations, in any reachable state. -/
theorem next_eq (hC : ∀ v, 2 ≤ C v) (w : Wired (idealOps hs) evVars g0)
    (hsne : ∀ i j s, sepset g0 i j = some s → s ≠ []) (hlen : ∀ i j s, sepset g0 i j = some s → s.length ≤ 1)
    {g : Graph (Cat ℝ) Nat EReal n m} {tr : List (Fin m × Cat ℝ)}
    (inv : ClInv g0 tr g.cl) (b : BelInv (denseLaws hs C N hC).toLaws g0 tr g) (q : Fin m) :
    makeMessage (denseOps hs) (g.cl (g0.path q).snd) (g0.cl (g0.path q).rcv).id =
      makeMessage (idealOps hs) (g.cl (g0.path q).snd) (g0.cl (g0.path q).rcv).id := by
  obtain ⟨r, hr1, hr2, hr3⟩ := w.rev q
  refine makeMessage_eq (C := C) (N := N) hC (vars := scope (idealOps hs) g0 (g0.path q).snd)
    (special := g0.special) (sep := sepOf g0 q) (b.ok _) ((denseLaws hs C N hC).nodup (b.ok0 _))
    (by rw [inv.cspecial, w.special]) (by rw [inv.sepsets]; exact w.sepOf_eq q)
    (hlen _ _ _ (w.sepOf_eq q)) (hsne _ _ _ (w.sepOf_eq q))
    (fun v hv => ⟨(b.vars _ v).2 (w.sepOf_mem q hv).1, (w.sepOf_mem q hv).2.2⟩) fun p hp => ?_
  have hrec := inv.received r
  rw [hr1, hr2, hp] at hrec
  obtain ⟨o1, o2⟩ := b.msg r p hrec.symm
  exact ⟨o1, fun v => by rw [← hr3]; exact o2 v⟩

/-- What `receive` does in a reachable state. -/
theorem receive_forms (hC : ∀ v, 2 ≤ C v) (w : Wired (idealOps hs) evVars g0)
    (hsne : ∀ i j s, sepset g0 i j = some s → s ≠ []) (hlen : ∀ i j s, sepset g0 i j = some s → s.length ≤ 1)
    {g : Graph (Cat ℝ) Nat EReal n m} {tr : List (Fin m × Cat ℝ)}
    (inv : RunInv (idealOps hs) g0 tr g) (b : BelInv (denseLaws hs C N hC).toLaws g0 tr g) (q : Fin m)
    {P old : Cat ℝ} (hP : Cat.multiply (g.cl (g.path q).rcv).factor (g.path q).next.factor = .ok P)
    (hold : Dict.get? (g.cl (g.path q).rcv).received (g.path q).next.snd = some old) :
    ∃ v pre, DenseOk C N P ∧ DenseOk C N old ∧ lastMsg tr q = some old ∧ old.vars = [v] ∧ P.vars = pre ++ [v] ∧
      pre.length + 1 = (scope (idealOps hs) g0 (g0.path q).rcv).length ∧ ∀ x, denseDen old x = 0 → denseDen P x = 0 := by
  obtain ⟨r, hr1, hr2, hr3⟩ := w.rev q
  obtain ⟨n1, n2, _⟩ := b.next w inv hr1 hr2 hr3
  have hids := makeMessage_ids (inv.next q)
  have hsend : (g.path q).next.snd = (g0.cl (g0.path q).snd).id := by rw [hids.1]; exact inv.id _
  rw [inv.rcv] at hP hold
  obtain ⟨p1, p2, p3⟩ := (denseLaws hs C N hC).mul (b.ok (g0.path q).rcv) n1 hP
  rw [hsend, inv.received q] at hold
  obtain ⟨o1, o2⟩ := b.msg q old hold
  obtain ⟨v, hv⟩ := length_one (hsne _ _ _ (w.sepOf_eq q)) (hlen _ _ _ (w.sepOf_eq q))
  rw [hv] at n2 o2
  have hvf : v ∈ (g.cl (g0.path q).rcv).factor.vars := (b.vars _ v).2 (w.sepOf_mem q (by rw [hv]; simp)).2.1
  refine ⟨v, _, p1, o1, hold, single_of ((denseLaws hs C N hC).nodup o1) o2,
    multiply_vars ((denseLaws hs C N hC).nodup (b.ok _)) hvf (single_of ((denseLaws hs C N hC).nodup n1) n2) hP, ?_, ?_⟩
  · have hp : P.vars.Perm (scope (idealOps hs) g0 (g0.path q).rcv) := by
      refine (List.perm_ext_iff_of_nodup ((denseLaws hs C N hC).nodup p1) ((denseLaws hs C N hC).nodup (b.ok0 _))).2
        fun u => ?_
      refine Iff.trans (p2 u) (Iff.trans ?_ (b.vars _ u))
      refine ⟨fun h => h.elim id fun h => ?_, Or.inl⟩
      rw [List.mem_singleton.1 ((n2 u).1 h)]
      exact hvf
    rw [← hp.length_eq, multiply_vars ((denseLaws hs C N hC).nodup (b.ok _)) hvf
      (single_of ((denseLaws hs C N hC).nodup n1) n2) hP]
    simp
  intro x hx
  have e : denseDen P x = _ := p3 x
  rw [e, b.belief]
  have hmem : q ∈ incoming g0 (g0.path q).rcv := by simp [incoming]
  have : mval (denseLaws hs C N hC).toLaws tr q x = 0 := by unfold mval; rw [hold]; exact hx
  rw [Finset.prod_eq_zero hmem this, mul_zero, zero_mul]

/-- A step with the operations of the code is a step with the corrected operations. -/
theorem pass_dense (hC : ∀ v, 2 ≤ C v) (w : Wired (idealOps hs) evVars g0) (hok : ∀ i, DenseOk C N (g0.cl i).factor)
    (hsne : ∀ i j s, sepset g0 i j = some s → s ≠ []) (hlen : ∀ i j s, sepset g0 i j = some s → s.length ≤ 1)
    {g g' : Graph (Cat ℝ) Nat EReal n m} {tr : List (Fin m × Cat ℝ)} {q : Fin m}
    (hr : Run (idealOps hs) g0 tr g) (h : pass (denseOps hs) g q = .ok g') : pass (idealOps hs) g q = .ok g' := by
  have inv := hr.inv w
  have b := hr.bel (L := (denseLaws hs C N hC).toLaws) w hok
  have hrecv : ∀ c, receive (denseOps hs) (g.cl (g.path q).rcv) (g.path q).next = .ok c →
      receive (idealOps hs) (g.cl (g.path q).rcv) (g.path q).next = .ok c := by
    intro c hc
    obtain ⟨k1, P, f, k2, k3, rfl⟩ := receive_ok hc
    have k3' : cancelReceived (idealOps hs) (g.cl (g.path q).rcv) (g.path q).next.snd P = .ok f := by
      unfold cancelReceived at k3 ⊢
      cases hold : Dict.get? (g.cl (g.path q).rcv).received (g.path q).next.snd with
      | none => rw [hold] at k3; exact k3
      | some old =>
        rw [hold] at k3
        obtain ⟨v, pre, a1, a2, _, a3, a4, _, a5⟩ := receive_forms hC w hsne hlen inv b q k2 hold
        exact cancel_transport hC a1 a2 a3 a4 a5 k3
    unfold receive
    rw [show ((g.path q).next.rcv == (g.cl (g.path q).rcv).id) = true from beq_iff_eq.2 k1]
    have k2' : (idealOps hs).multiply (g.cl (g.path q).rcv).factor (g.path q).next.factor = .ok P := k2
    simp only [pyAssert, if_true, py_bind_ok]
    rw [k2', py_bind_ok, k3']
    rfl
  refine pass_transport (A := denseOps hs) (B := idealOps hs) rfl rfl hrecv (fun c hc r _ msg hm => ?_) h
  have hc' := hrecv c hc
  have hids := makeMessage_ids (inv.next q)
  have hsend : (g.path q).next.snd = (g0.cl (g0.path q).snd).id := by rw [hids.1]; exact inv.id _
  have hcl := inv.clusters.deliver w (q := q) hsend (by rw [← inv.rcv]; exact hc')
  have hb1 := b.deliver w inv hc' (g' := { g with cl := Function.update g.cl (g.path q).rcv c }) rfl
  rw [← inv.rcv] at hcl
  have := next_eq (N := N) hC w hsne hlen (g := { g with cl := Function.update g.cl (g.path q).rcv c }) hcl hb1 r
  rw [inv.snd r, inv.rcv r, hcl.id] at hm ⊢
  rw [← this]
  exact hm

/-- Unless the last message has a zero and the receiver another variable, a step with the corrected operations is a
step of the code. -/
theorem pass_ideal (hC : ∀ v, 2 ≤ C v) (w : Wired (idealOps hs) evVars g0) (hok : ∀ i, DenseOk C N (g0.cl i).factor)
    (hsne : ∀ i j s, sepset g0 i j = some s → s ≠ []) (hlen : ∀ i j s, sepset g0 i j = some s → s.length ≤ 1)
    {g g' : Graph (Cat ℝ) Nat EReal n m} {tr : List (Fin m × Cat ℝ)} {q : Fin m}
    (hr : Run (idealOps hs) g0 tr g)
    (hz : ∀ p, lastMsg tr q = some p → HasZero p → (scope (idealOps hs) g0 (g0.path q).rcv).length ≤ 1)
    (h : pass (idealOps hs) g q = .ok g') : pass (denseOps hs) g q = .ok g' := by
  have inv := hr.inv w
  have b := hr.bel (L := (denseLaws hs C N hC).toLaws) w hok
  have hrecv : ∀ c, receive (idealOps hs) (g.cl (g.path q).rcv) (g.path q).next = .ok c →
      receive (denseOps hs) (g.cl (g.path q).rcv) (g.path q).next = .ok c := by
    intro c hc
    obtain ⟨k1, P, f, k2, k3, rfl⟩ := receive_ok hc
    have k3' : cancelReceived (denseOps hs) (g.cl (g.path q).rcv) (g.path q).next.snd P = .ok f := by
      unfold cancelReceived at k3 ⊢
      cases hold : Dict.get? (g.cl (g.path q).rcv).received (g.path q).next.snd with
      | none => rw [hold] at k3; exact k3
      | some old =>
        rw [hold] at k3
        obtain ⟨v, pre, a1, a2, a0, a3, a4, al, a5⟩ := receive_forms hC w hsne hlen inv b q k2 hold
        exact (cancel_positive a1 a2 a3 a4 fun h => List.eq_nil_of_length_eq_zero (by
          have := hz old a0 h; omega)).trans k3
    unfold receive
    rw [show ((g.path q).next.rcv == (g.cl (g.path q).rcv).id) = true from beq_iff_eq.2 k1]
    have k2' : (denseOps hs).multiply (g.cl (g.path q).rcv).factor (g.path q).next.factor = .ok P := k2
    simp only [pyAssert, if_true, py_bind_ok]
    rw [k2', py_bind_ok, k3']
    rfl
  refine pass_transport (A := idealOps hs) (B := denseOps hs) rfl rfl hrecv (fun c hc r _ msg hm => ?_) h
  have hids := makeMessage_ids (inv.next q)
  have hsend : (g.path q).next.snd = (g0.cl (g0.path q).snd).id := by rw [hids.1]; exact inv.id _
  have hcl := inv.clusters.deliver w (q := q) hsend (by rw [← inv.rcv]; exact hc)
  have hb1 := b.deliver w inv hc (g' := { g with cl := Function.update g.cl (g.path q).rcv c }) rfl
  rw [← inv.rcv] at hcl
  have := next_eq (N := N) hC w hsne hlen (g := { g with cl := Function.update g.cl (g.path q).rcv c }) hcl hb1 r
  rw [inv.snd r, inv.rcv r, hcl.id] at hm ⊢
  rw [this]
  exact hm

/-- Otherwise the step raises. -/
theorem pass_raises (hC : ∀ v, 2 ≤ C v) (w : Wired (idealOps hs) evVars g0) (hok : ∀ i, DenseOk C N (g0.cl i).factor)
    (hsne : ∀ i j s, sepset g0 i j = some s → s ≠ []) (hlen : ∀ i j s, sepset g0 i j = some s → s.length ≤ 1)
    {g : Graph (Cat ℝ) Nat EReal n m} {tr : List (Fin m × Cat ℝ)} {q : Fin m}
    (hr : Run (idealOps hs) g0 tr g) {p : Cat ℝ} (hl : lastMsg tr q = some p) (hz : HasZero p)
    (hs2 : 2 ≤ (scope (idealOps hs) g0 (g0.path q).rcv).length) : pass (denseOps hs) g q = .error .indexError := by
  have inv := hr.inv w
  have b := hr.bel (L := (denseLaws hs C N hC).toLaws) w hok
  obtain ⟨r, hr1, hr2, hr3⟩ := w.rev q
  obtain ⟨n1, n2, _⟩ := b.next w inv hr1 hr2 hr3
  have hids := makeMessage_ids (inv.next q)
  have hsend : (g.path q).next.snd = (g0.cl (g0.path q).snd).id := by rw [hids.1]; exact inv.id _
  have hrcv : (g.path q).next.rcv = (g.cl (g.path q).rcv).id := by rw [hids.2, inv.id, inv.rcv]
  obtain ⟨P, hP, _⟩ := DenseOk.mul (b.ok (g.path q).rcv) n1
  have hold : Dict.get? (g.cl (g.path q).rcv).received (g.path q).next.snd = some p := by
    rw [inv.rcv, hsend, inv.received q, hl]
  obtain ⟨v, pre, a1, a2, _, a3, a4, al, a5⟩ := receive_forms hC w hsne hlen inv b q hP hold
  obtain ⟨x, hx, h0⟩ := hz
  have hpre : pre ≠ [] := by rintro rfl; simp at al; omega
  have hxv : x v < C v := a2.inRange.1 hx v (by rw [a3]; simp)
  obtain ⟨y, hy⟩ : ∃ y : Asg, y = fun u => if u = v then x v else 0 := ⟨_, rfl⟩
  have hyP : P.InRange y := a1.inRange.2 fun u _ => by
    rw [hy]
    dsimp only
    split
    · rename_i huv; rw [huv]; exact hxv
    · have := hC u; omega
  have hy0 : p.val y = .ninf := by
    rw [← h0]
    unfold Cat.val
    rw [a3, hy]
    simp
  have hyp : p.InRange y := a2.inRange.2 fun u hu => by
    rw [a3, List.mem_singleton] at hu
    rw [hy, hu]
    simpa using hxv
  have hc : Cat.cancel P p = .error .indexError :=
    (Cat.C17_cancel_suffix P p a1.wf a2.wf pre hpre (by rw [a4, a3]) (a1.consistent a2) (a1.sameNames a2)).1
      ⟨y, hyP, (a1.den_zero hyP).1 (a5 y ((a2.den_zero hyp).2 hy0)), hy0⟩
  unfold pass receive cancelReceived
  dsimp only
  rw [show ((g.path q).next.rcv == (g.cl (g.path q).rcv).id) = true from beq_iff_eq.2 hrcv, hold]
  simp only [pyAssert, if_true, py_bind_ok]
  have hP' : (denseOps hs).multiply (g.cl (g.path q).rcv).factor (g.path q).next.factor = .ok P := hP
  have hc' : (denseOps hs).cancel P p = .error .indexError := hc
  rw [hP', py_bind_ok, hc']
  rfl

end Verif.CG

import Verif.Model.NetService
import Verif.Props.Endpoint
/-
C114: the life of the network service.
-/
namespace Huobi

/-! ### Specification -/

/-- The endpoint (first three components) and the reactor of a registration that is accepted: a well-formed url with the scheme for the kind of registration. -/
def NetCall.registers {R : Type} : NetCall R → Option (List Str × R)
  | .register url r =>
    match Endpoint.parse url with
    | .ok e => if e.scheme = some .rpcResp then none else some ((urlComps url).take 3, r)
    | .error _ => none
  | .registerResponse url r =>
    match Endpoint.parse url with
    | .ok e => if e.scheme = some .rpcResp then some ((urlComps url).take 3, r) else none
    | .error _ => none
  | _ => none

/-- The reactor registered for an endpoint by the last accepted registration. -/
def lastFor {R : Type} : List (NetCall R) → List Str → Option R
  | [], _ => none
  | c :: cs, k => (lastFor cs k).or (c.registers.bind fun x => if x.1 = k then some x.2 else none)

/-- The address the transport really listens on, and the one it was told, of the first call to listen that it accepts. -/
def firstListen {R : Type} (w : World0) : List (NetCall R) → Option (Multi × Multi)
  | [] => none
  | .listen a :: cs => ((w.bind (socketToMulti a)).map fun real => (real, socketToMulti a)).or (firstListen w cs)
  | _ :: cs => firstListen w cs

/-- What a service that was started is. -/
structure NetService.Started {R : Type} (w : World0) (s : NetService R) (pre : List (NetCall R)) : Prop where
  /-- every task runs, once -/
  parts : s.running = [.connection, .peerManager, .router, .heartBeat]
  /-- it listens where it was told first, if the transport could listen there; else at the default address; and it tells its peers so -/
  listens : match firstListen w pre with
    | some x => s.net.bound = some x.1 ∧ s.net.announced = some x.2
    | none => w.bind defaultListen = s.net.bound ∧ s.net.announced = some defaultListen
  /-- a message goes to the reactor that was registered last for its endpoint -/
  routes : ∀ url e, Endpoint.parse url = .ok e → s.table.route url = match lastFor pre ((urlComps url).take 3) with
    | some r => .ok r
    | none => .error .noReactor

/-! ### Proofs -/

section
variable {R : Type} {w : World0}

theorem calls_append (s : NetService R) (a b : List (NetCall R)) : s.calls w (a ++ b) =
    (s.calls w a).bind fun x => (x.2.calls w b).map fun y => (x.1 ++ y.1, y.2) := by
  induction a generalizing s with
  | nil =>
    simp only [List.nil_append, NetService.calls, Option.bind_some]
    cases s.calls w b <;> rfl
  | cons c a ih =>
    simp only [List.cons_append, NetService.calls]
    cases s.step w c with
    | none => rfl
    | some x =>
      simp only [ih]
      cases x.2.calls w a with
      | none => rfl
      | some y =>
        simp only [Option.bind_some]
        cases y.2.calls w b <;> rfl

/-- A service that does not run yet. -/
structure NetService.Fresh (s : NetService R) (m : Reactors R) : Prop where
  conn : s.conn = true
  mgr : s.mgr = true
  beat : s.beat = true
  router : s.router = some m
  running : s.running = []

/-- What calls before the start do. -/
theorem before {pre : List (NetCall R)} (hp : NetCall.poll ∉ pre) {s : NetService R} {m : Reactors R} (h : s.Fresh m) (hn : s.net.bound = none → s.net.announced = none) :
    ∃ bs s' m', s.calls w pre = some (bs, s') ∧ s'.Fresh m' ∧ (s'.net.bound = none → s'.net.announced = none) ∧
      (s.net.bound.isSome → s'.net = s.net) ∧
      (s.net.bound = none → match firstListen w pre with
        | some x => s'.net.bound = some x.1 ∧ s'.net.announced = some x.2
        | none => s'.net.bound = none) ∧
      (∀ url e, Endpoint.parse url = .ok e → m'.route url = match lastFor pre ((urlComps url).take 3) with
        | some r => .ok r
        | none => m.route url) ∧
      ∀ c b, (c, b) ∈ pre.zip bs → (∀ a, c ≠ .listen a) → b = c.registers.isSome := by
  induction pre generalizing s m with
  | nil => exact ⟨[], s, m, rfl, h, hn, fun _ => rfl, fun h => h, fun _ _ _ => rfl, fun _ _ h => by cases h⟩
  | cons c cs ih =>
    have hcs : NetCall.poll ∉ cs := fun hm => hp (.tail _ hm)
    -- registrations
    have reg (c : NetCall R) (resp : Bool) (u : Str) (r : R) (hstep : s.step w c = some (s.addReactor resp u r)) (hl : ∀ l : List (NetCall R), firstListen w (c :: l) = firstListen w l)
        (hc : c.registers = match Endpoint.parse u with
          | .ok e => if (e.scheme = some .rpcResp) = (resp = true) then some ((urlComps u).take 3, r) else none
          | .error _ => none) :
        ∃ bs s' m', s.calls w (c :: cs) = some (bs, s') ∧ s'.Fresh m' ∧ (s'.net.bound = none → s'.net.announced = none) ∧
          (s.net.bound.isSome → s'.net = s.net) ∧
          (s.net.bound = none → match firstListen w (c :: cs) with
            | some x => s'.net.bound = some x.1 ∧ s'.net.announced = some x.2
            | none => s'.net.bound = none) ∧
          (∀ url e, Endpoint.parse url = .ok e → m'.route url = match lastFor (c :: cs) ((urlComps url).take 3) with
            | some r => .ok r
            | none => m.route url) ∧
          ∀ d b, (d, b) ∈ (c :: cs).zip bs → (∀ a, d ≠ .listen a) → b = d.registers.isSome := by
      have key : ∃ m1, (s.addReactor resp u r).2.Fresh m1 ∧ (s.addReactor resp u r).2.net = s.net ∧ (s.addReactor resp u r).1 = c.registers.isSome ∧
          ∀ url e, Endpoint.parse url = .ok e → m1.route url =
            match c.registers.bind (fun x => if x.1 = (urlComps url).take 3 then some x.2 else none) with
            | some r => .ok r
            | none => m.route url := by
        unfold NetService.addReactor
        cases hu : Endpoint.parse u with
        | error x =>
          rw [hu] at hc
          simp only at hc
          exact ⟨m, h, rfl, by rw [hc]; rfl, fun url e he => by rw [hc]; rfl⟩
        | ok d =>
          rw [hu] at hc
          simp only at hc
          by_cases hsch : (d.scheme = some .rpcResp) = (resp = true)
          · rw [if_pos hsch] at hc
            simp only [if_pos hsch, h.router]
            refine ⟨m.register d r, ⟨h.conn, h.mgr, h.beat, rfl, h.running⟩, trivial, by rw [hc]; rfl, fun url e he => ?_⟩
            obtain ⟨h1, h2⟩ := C54_register m u url d e r hu he
            rw [hc]
            simp only [Option.bind_some]
            by_cases hk : (urlComps u).take 3 = (urlComps url).take 3
            · rw [if_pos hk, h1 hk.symm]
            · rw [if_neg hk, h2 (Ne.symm hk)]
          · rw [if_neg hsch] at hc
            simp only [if_neg hsch]
            exact ⟨m, h, trivial, by rw [hc]; rfl, fun url e he => by rw [hc]; rfl⟩
      obtain ⟨m1, k1, k2, k3, k4⟩ := key
      obtain ⟨bs, s', m', i1, i2, i3, i4, i5, i6, i7⟩ := ih hcs k1 (by rw [k2]; exact hn)
      rw [k2] at i4 i5
      refine ⟨(s.addReactor resp u r).1 :: bs, s', m', ?_, i2, i3, i4, by rw [hl]; exact i5, fun url e he => ?_, fun d b hd hlis => ?_⟩
      · unfold NetService.calls
        rw [hstep]
        simp only [i1]
      · rw [i6 url e he, lastFor]
        cases hx : lastFor cs ((urlComps url).take 3) with
        | some x => rfl
        | none => rw [Option.none_or]; exact k4 url e he
      · rw [List.zip_cons_cons] at hd
        rcases List.mem_cons.1 hd with hd | hd
        · injection hd with hd1 hd2
          rw [hd1, hd2]
          exact k3
        · exact i7 d b hd hlis
    cases c with
    | poll => exact absurd (.head _) hp
    | register u r =>
      refine reg _ false u r rfl (fun _ => rfl) ?_
      simp only [NetCall.registers]
      cases Endpoint.parse u with
      | error _ => rfl
      | ok e =>
        simp only [Bool.false_eq_true, eq_iff_iff, iff_false]
        by_cases hs : e.scheme = some .rpcResp <;> simp [hs]
    | registerResponse u r =>
      refine reg _ true u r rfl (fun _ => rfl) ?_
      simp only [NetCall.registers]
      cases Endpoint.parse u with
      | error _ => rfl
      | ok e => simp only [eq_iff_iff, iff_true]
    | listen a =>
      have hf : ({ s with net := (s.net.listen w a).2 } : NetService R).Fresh m := ⟨h.conn, h.mgr, h.beat, h.router, h.running⟩
      have hcall {bs : List Bool} {s' : NetService R} (hh : ({ s with net := (s.net.listen w a).2 } : NetService R).calls w cs = some (bs, s')) :
          s.calls w (.listen a :: cs) = some ((s.net.listen w a).1 :: bs, s') := by
        unfold NetService.calls NetService.step
        simp only [NetService.listen, if_pos h.conn]
        rw [hh]
      have zip {bs : List Bool} {b0 : Bool} (i7 : ∀ c b, (c, b) ∈ cs.zip bs → (∀ a, c ≠ .listen a) → b = c.registers.isSome) :
          ∀ d b, (d, b) ∈ (NetCall.listen a :: cs).zip (b0 :: bs) → (∀ a, d ≠ .listen a) → b = d.registers.isSome := by
        intro d b hd hlis
        rw [List.zip_cons_cons] at hd
        rcases List.mem_cons.1 hd with hd | hd
        · injection hd with hd1 hd2
          exact absurd hd1 (hlis a)
        · exact i7 d b hd hlis
      have last : ∀ k, lastFor (NetCall.listen a :: cs) k = lastFor cs k := fun k => by
        show (lastFor cs k).or none = _
        exact Option.or_none
      cases hb : s.net.bound with
      | some x =>
        have hnet : (s.net.listen w a).2 = s.net := by unfold NetStart.listen; rw [hb]
        rw [hnet] at hf hcall
        obtain ⟨bs, s', m', i1, i2, i3, i4, i5, i6, i7⟩ := ih hcs hf (by rw [hb]; exact fun h => (by cases h))
        exact ⟨_, s', m', hcall i1, i2, i3, fun _ => i4 (by rw [hb]; rfl), fun h => (by cases h), fun url e he => by rw [last]; exact i6 url e he, zip i7⟩
      | none =>
        cases hw : w.bind (socketToMulti a) with
        | none =>
          have hnet : (s.net.listen w a).2 = s.net := by unfold NetStart.listen; rw [hb]; simp only [hw]
          rw [hnet] at hf hcall
          obtain ⟨bs, s', m', i1, i2, i3, i4, i5, i6, i7⟩ := ih hcs hf hn
          refine ⟨_, s', m', hcall i1, i2, i3, fun h => (by cases h), fun _ => ?_, fun url e he => by rw [last]; exact i6 url e he, zip i7⟩
          have := i5 hb
          rw [firstListen, hw]
          exact this
        | some real =>
          have hnet : (s.net.listen w a).2 = { s.net with bound := some real, announced := some (socketToMulti a) } := by
            unfold NetStart.listen; rw [hb]; simp only [hw]
          rw [hnet] at hf hcall
          obtain ⟨bs, s', m', i1, i2, i3, i4, i5, i6, i7⟩ := ih hcs hf (fun h => (by cases h))
          refine ⟨_, s', m', hcall i1, i2, i3, fun h => (by cases h), fun _ => ?_, fun url e he => by rw [last]; exact i6 url e he, zip i7⟩
          have := i4 rfl
          rw [firstListen, hw]
          simp only [Option.map_some, Option.some_or]
          rw [this]
          exact ⟨rfl, rfl⟩

/-- A service that runs. -/
structure NetService.Runs (s : NetService R) : Prop where
  conn : s.conn = false
  mgr : s.mgr = false
  beat : s.beat = false
  router : s.router = none

/-- Nothing that is called after the start does anything. -/
theorem afterStart {post : List (NetCall R)} {s : NetService R} (h : s.Runs) : ∃ bs, s.calls w post = some (bs, s) ∧
    ∀ c b, (c, b) ∈ post.zip bs → b = match c with
      | .listen _ => true
      | .poll => true
      | c => c.registers.isSome := by
  induction post with
  | nil => exact ⟨[], rfl, fun _ _ h => by cases h⟩
  | cons c cs ih =>
    obtain ⟨bs, i1, i2⟩ := ih
    have key : ∃ b, s.step w c = some (b, s) ∧ b = match (motive := NetCall R → Bool) c with
        | .listen _ => true
        | .poll => true
        | c => c.registers.isSome := by
      cases c with
      | poll =>
        refine ⟨true, ?_, rfl⟩
        simp only [NetService.step, NetService.poll, NetService.startConn, h.conn, Bool.false_eq_true, if_false, Option.map_some, NetService.startMgr, h.mgr,
          NetService.startRouter, h.router, NetService.startBeat, h.beat]
      | listen a =>
        refine ⟨true, ?_, rfl⟩
        simp only [NetService.step, NetService.listen, h.conn, Bool.false_eq_true, if_false]
      | register u r =>
        refine ⟨(NetCall.register u r).registers.isSome, ?_, rfl⟩
        simp only [NetService.step, NetService.addReactor, NetCall.registers]
        cases Endpoint.parse u with
        | error _ => rfl
        | ok e =>
          simp only [h.router]
          by_cases hs : e.scheme = some .rpcResp <;> simp [hs]
      | registerResponse u r =>
        refine ⟨(NetCall.registerResponse u r).registers.isSome, ?_, rfl⟩
        simp only [NetService.step, NetService.addReactor, NetCall.registers]
        cases Endpoint.parse u with
        | error _ => rfl
        | ok e =>
          simp only [h.router]
          by_cases hs : e.scheme = some .rpcResp <;> simp [hs]
    obtain ⟨b, k1, k2⟩ := key
    refine ⟨b :: bs, ?_, fun d b' hd => ?_⟩
    · unfold NetService.calls
      rw [k1]
      simp only [i1]
    · rw [List.zip_cons_cons] at hd
      rcases List.mem_cons.1 hd with hd | hd
      · injection hd with hd1 hd2
        subst hd1
        rw [hd2]
        exact k2
      · exact i2 d b' hd

/-- **C114 (partial: for what is registered and told before the start; see `C114_refuted`).**  Whatever is called, in whatever order: a service that was polled
runs each of its four tasks exactly once; it listens at the address of the first call to listen that the transport accepted before the start, or at the default
address, and announces that address; a message goes to the reactor that was registered last, before the start, for the first three components of its endpoint,
and if none was, to none.  A registration succeeds exactly if the url is well-formed and of the right scheme. -/
theorem C114_partial (keypair : Bytes) (boots : List BootPeer) (pre post : List (NetCall R)) (hp : NetCall.poll ∉ pre) {bs : List Bool} {s : NetService R}
    (h : (NetService.new keypair boots).calls w (pre ++ .poll :: post) = some (bs, s)) :
    s.Started w pre ∧ ∀ c b, (c, b) ∈ (pre ++ .poll :: post).zip bs → (∃ u r, c = .register u r ∨ c = .registerResponse u r) → b = c.registers.isSome := by
  have hnew : (NetService.new (R := R) keypair boots).Fresh [] := ⟨rfl, rfl, rfl, rfl, rfl⟩
  obtain ⟨b1, s1, m1, i1, i2, i3, -, i5, i6, i7⟩ := before (w := w) hp hnew (fun _ => rfl)
  have i5 := i5 rfl
  rw [calls_append, i1] at h
  simp only [Option.bind_some] at h
  have hpoll : ∃ s2, s1.poll w = some s2 ∧ s2.Runs ∧ s2.Started w pre ∨ s1.poll w = none := by
    unfold NetService.poll NetService.startConn
    rw [if_pos i2.conn]
    have hroute : ∀ url e, Endpoint.parse url = .ok e → m1.route url = match lastFor pre ((urlComps url).take 3) with
        | some r => .ok r
        | none => .error .noReactor := fun url e he => by
      rw [i6 url e he]
      have : Reactors.route ([] : Reactors R) url = .error .noReactor := by unfold Reactors.route; rw [he]; rfl
      rw [this]
    cases hb : s1.net.bound with
    | some x =>
      refine ⟨_, .inl ⟨rfl, ⟨?_, ?_, ?_, ?_⟩, ⟨?_, ?_, ?_⟩⟩⟩
      all_goals simp only [NetService.startMgr, NetService.startRouter, NetService.startBeat, i2.mgr, i2.router, i2.beat, if_true, i2.running, List.nil_append, List.cons_append]
      · cases hl : firstListen w pre with
        | none => rw [hl] at i5; simp only at i5; rw [hb] at i5; cases i5
        | some y =>
          rw [hl] at i5
          simp only at i5 ⊢
          rw [i5.2]
          exact ⟨i5.1, rfl⟩
      · exact hroute
    | none =>
      cases hw : w.bind defaultListen with
      | none => exact ⟨s1, .inr rfl⟩
      | some real =>
        refine ⟨_, .inl ⟨rfl, ⟨?_, ?_, ?_, ?_⟩, ⟨?_, ?_, ?_⟩⟩⟩
        all_goals simp only [NetService.startMgr, NetService.startRouter, NetService.startBeat, i2.mgr, i2.router, i2.beat, if_true, i2.running, List.nil_append, List.cons_append]
        · cases hl : firstListen w pre with
          | some y => rw [hl] at i5; simp only at i5; rw [hb] at i5; cases i5.1
          | none =>
            simp only
            rw [i3 hb]
            exact ⟨hw, rfl⟩
        · exact hroute
  obtain ⟨s2, ⟨q1, q2, q3⟩ | q1⟩ := hpoll
  · obtain ⟨b2, j1, j2⟩ := afterStart (w := w) (post := post) q2
    have hc : s1.calls w (.poll :: post) = some (true :: b2, s2) := by
      unfold NetService.calls NetService.step
      rw [q1]
      simp only [Option.map_some]
      rw [j1]
    rw [hc] at h
    simp only [Option.map_some, Option.some.injEq, Prod.mk.injEq] at h
    obtain ⟨rfl, rfl⟩ := h
    refine ⟨q3, fun c b hm hr => ?_⟩
    have hlen : pre.length = b1.length := by
      have len : ∀ (l : List (NetCall R)) (s : NetService R) (b : List Bool) (s' : NetService R), s.calls w l = some (b, s') → l.length = b.length := by
        intro l
        induction l with
        | nil => intro s b s' hh; injection hh with hh; injection hh with hh _; subst hh; rfl
        | cons c l ih =>
          intro s b s' hh
          unfold NetService.calls at hh
          split at hh
          · cases hh
          · split at hh
            · cases hh
            · rename_i hx
              injection hh with hh
              injection hh with hh _
              subst hh
              rw [List.length_cons, List.length_cons, ih _ _ _ hx]
      exact len _ _ _ _ i1
    rw [List.zip_append hlen, List.zip_cons_cons] at hm
    rcases List.mem_append.1 hm with hm | hm
    · refine i7 c b hm fun a ha => ?_
      obtain ⟨u, r, hr | hr⟩ := hr <;> rw [ha] at hr <;> cases hr
    · rcases List.mem_cons.1 hm with hm | hm
      · injection hm with hm1 hm2
        obtain ⟨u, r, hr | hr⟩ := hr <;> rw [hm1] at hr <;> cases hr
      · have := j2 c b hm
        obtain ⟨u, r, rfl | rfl⟩ := hr <;> exact this
  · unfold NetService.calls NetService.step at h
    rw [q1] at h
    simp only [Option.map_none] at h
    cases h

end

/-! ### Witnesses -/

namespace Demo

def anyWorld : World0 := ⟨fun _ => none, fun a => some a⟩
def urlA : Str := "/gossip/mempool/new_txs".toList
def urlB : Str := "/rpc_call/consensus/sync_pull".toList

def lateRegister : List (NetCall Nat) := [.listen (.v4 [127, 0, 0, 1] 1337), .register urlA 1, .poll, .register urlB 2, .listen (.v4 [127, 0, 0, 1] 1338)]

def lateCheck : Bool := match (NetService.new (R := Nat) [] []).calls anyWorld lateRegister with
  | some (bs, s) => decide (bs = [true, true, true, true, true]) && decide ((s.table.route urlB).toOption = none) &&
      decide ((s.table.route urlA).toOption = some 1) && decide (s.net.bound = some [.ip4 [127, 0, 0, 1], .tcp 1337])
  | none => false

end Demo

open Demo in
/-- **C114 is false for what is called after the start (and for a second call to listen)**: all the calls are answered with success, but messages for the endpoint
registered last have no reactor, and the node does not listen at the address told last. -/
theorem C114_refuted : ∃ bs s, (NetService.new (R := Nat) [] []).calls anyWorld lateRegister = some (bs, s) ∧ (∀ b ∈ bs, b = true) ∧
    (NetCall.register urlB 2) ∈ lateRegister ∧ (s.table.route urlB).toOption = none ∧
    NetCall.listen (.v4 [127, 0, 0, 1] 1338) ∈ lateRegister ∧ s.net.bound = some [.ip4 [127, 0, 0, 1], .tcp 1337] := by
  have h : lateCheck = true := by decide +kernel
  unfold lateCheck at h
  split at h
  · rename_i bs s hs
    simp only [Bool.and_eq_true, decide_eq_true_eq] at h
    refine ⟨bs, s, hs, ?_, ?_, h.1.1.2, ?_, h.2⟩
    · rw [h.1.1.1]; simp
    · simp [lateRegister]
    · simp [lateRegister]
  · cases h

open Demo in
/-- The hypotheses of `C114_partial` are met: the same calls, where the one before the start has its effect. -/
example : ∃ bs s, (NetService.new (R := Nat) [] []).calls anyWorld ([.listen (.v4 [127, 0, 0, 1] 1337), .register urlA 1] ++ .poll ::
      [.register urlB 2, .listen (.v4 [127, 0, 0, 1] 1338)]) = some (bs, s) ∧ (s.table.route urlA).toOption = some 1 := by
  have h : lateCheck = true := by decide +kernel
  unfold lateCheck at h
  split at h
  · rename_i bs s hs
    simp only [Bool.and_eq_true, decide_eq_true_eq] at h
    exact ⟨bs, s, hs, h.1.2⟩
  · cases h

end Huobi

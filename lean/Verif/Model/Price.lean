import Verif.Model.Transaction
/-
Model of src/models/price.rs (currency conversion) and of `convert_balance` in
src/commands/balance.rs.
-/
namespace Dinero

/-- `struct Price`, src/models/price.rs 12-17.  The field `price: Money` is flattened into its
amount and its commodity: every place that builds a `Price` (src/models/mod.rs 137-152, 187-197,
321-331 and the costs in `_transaction_to_ledger`) passes a `Money::Money`, never `Money::Zero`, so
`get_commodity().unwrap()` cannot fail. -/
structure Price where
  date : Date
  commodity : Cur
  amount : Rat
  cur : Cur
  deriving DecidableEq

/-- `struct Node`, src/models/price.rs 149-153. -/
structure Node where
  cur : Cur
  date : Date
  deriving DecidableEq

/-- `struct Edge`, src/models/price.rs 155-160 (`from`, `to`). -/
structure Edge where
  price : Option Price
  src : Node
  dst : Node
  deriving DecidableEq

/-- `Edge::length`, src/models/price.rs 162-170, in days. -/
def Edge.length (e : Edge) : Int :=
  if e.src.date > e.dst.date then e.src.date - e.dst.date else e.dst.date - e.src.date

/-- The key `commodities` of `Graph::from_prices`, src/models/price.rs 191-196: the two names in
order. -/
def Price.pair (p : Price) : Cur × Cur :=
  if p.cur < p.commodity then (p.cur, p.commodity) else (p.commodity, p.cur)

/-- One iteration of the loop that removes redundant prices, src/models/price.rs 187-207. -/
def nodupStep (date : Date) (m : HMap (Cur × Cur) Price) (p : Price) : HMap (Cur × Cur) Price :=
  if p.date > date then m
  else
    match m.get? p.pair with
    | none => m.insert p.pair p
    | some x => if x.date < p.date then m.insert p.pair p else m

/-- `prices_nodup`, src/models/price.rs 186-207. -/
def pricesNodup (prices : List Price) (date : Date) : HMap (Cur × Cur) Price :=
  prices.foldl (nodupStep date) []

/-- `currency_dates`, src/models/price.rs 183-184 and 208-219.  (Filled in hash order; only its
contents matter, since the nodes are iterated in the order of another map.) -/
def currencyDates (source : Node) (ps : List Price) : List Node :=
  ps.foldl (fun s p => setInsert (setInsert s ⟨p.pair.1, p.date⟩) ⟨p.pair.2, p.date⟩) [source]

/-- The edges between nodes of the same commodity, src/models/price.rs 249-261 (`j` starts at `i`,
so there is one from every node to itself). -/
def sameCurEdges : List Node → List Edge
  | [] => []
  | n :: l => ((n :: l).filter (fun m => n.cur = m.cur)).map (fun m => ⟨none, n, m⟩) ++ sameCurEdges l

/-- The edges made from the prices, src/models/price.rs 231-245 (the node lookups cannot fail: both
nodes were inserted in lines 208-229). -/
def priceEdges (ps : List Price) : List Edge :=
  ps.map (fun p => ⟨some p, ⟨p.commodity, p.date⟩, ⟨p.cur, p.date⟩⟩)

/-- `struct Graph`, src/models/price.rs 172-177 (the memo `_neighbours` is dropped: it stores what
`neighbours` recomputes, and the edges do not change). -/
structure Graph where
  nodes : List Node
  edges : List Edge

/-- `Graph::from_prices`, src/models/price.rs 180-269.  `sP` is the hash order of `prices_nodup`,
`sN` that of `nodes`. -/
def Graph.fromPrices (sP sN : Shuf) (prices : List Price) (source : Node) : Graph :=
  let ps := (sP.run (pricesNodup prices source.date)).map Prod.snd
  let nodes := sN.run (currencyDates source ps)
  ⟨nodes, priceEdges ps ++ sameCurEdges nodes⟩

/-- `Graph::get_neighbours`, src/models/price.rs 270-287. -/
def Graph.neighbours (g : Graph) (node : Node) : List (Node × Edge) :=
  g.edges.filterMap (fun e =>
    if e.src = node then some (e.dst, e) else if e.dst = node then some (e.src, e) else none)

/-- The variables `distances` and `paths` of `conversion`, src/models/price.rs 59-60. -/
structure DState where
  dist : HMap Node (Option Int)
  paths : HMap Node (List Edge)

/-- Initial distances, src/models/price.rs 64-75. -/
def initDist (target : Cur) (date : Date) (nodes : List Node) : HMap Node (Option Int) :=
  nodes.foldl (fun m n => m.insert n (if n.cur = target then some (date - n.date) else none)) []

/-- `fn cmp`, src/models/price.rs 290-301. -/
def distCmp : Option Int → Option Int → Ordering
  | none, none => .eq
  | none, some _ => .gt
  | some _, none => .lt
  | some s, some o => compare s o

/-- The order used to sort the queue, src/models/price.rs 78.  (Every node has an entry in
`distances` from the start, so the `unwrap`s do not fail; `dijkstra_spec` in `Lemmas/Price.lean`
proves that entry.) -/
def queueLe (dist : HMap Node (Option Int)) (a b : Node) : Bool :=
  distCmp ((dist.get? b).getD none) ((dist.get? a).getD none) ≠ .gt

/-- One iteration of the loop over the neighbours, src/models/price.rs 95-110. -/
def relaxStep (v : Node) (currentPath : List Edge) (st : DState) (ue : Node × Edge) : Res DState :=
  match st.dist.get? v, st.dist.get? ue.1 with
  | some (some dv), some du =>
    let alt := dv + ue.2.length
    let update := match du with
      | none => true
      | some d => decide (alt < d)
    if update then
      .ok ⟨st.dist.insert ue.1 (some alt), st.paths.insert ue.1 (currentPath ++ [ue.2])⟩
    else .ok st
  | _, _ => .error (.panic "distances.get(node).unwrap()")

/-- The loop over the neighbours, src/models/price.rs 95-110. -/
def relaxAll (v : Node) (currentPath : List Edge) : List (Node × Edge) → DState → Res DState
  | [], st => .ok st
  | ue :: l, st =>
    match relaxStep v currentPath st ue with
    | .error e => .error e
    | .ok st' => relaxAll v currentPath l st'

/-- The main loop, src/models/price.rs 76-111.  The first argument is the number of iterations
left; it is called with the length of the queue, which each iteration shortens by one. -/
def dijkstra (g : Graph) : Nat → List Node → DState → Res DState
  | 0, _, st => .ok st
  | k + 1, queue, st =>
    match (sortBy (queueLe st.dist) queue).reverse with
    | [] => .ok st
    | v :: rest =>
      match st.dist.get? v with
      | none => .error (.panic "distances.get(node).unwrap()")
      | some none => .ok st
      | some (some _) =>
        match relaxAll v ((st.paths.get? v).getD []) (g.neighbours v) st with
        | .error e => .error e
        | .ok st' => dijkstra g k rest.reverse st'

/-- The loop over the edges of one path, last edge first, src/models/price.rs 130-143. -/
def pathMult : List Edge → Rat → Cur → Res Rat
  | [], mult, _ => .ok mult
  | e :: es, mult, currency =>
    match e.price with
    | none => pathMult es mult currency
    | some p =>
      if currency = e.src.cur then pathMult es (mult * p.amount) e.dst.cur
      else
        match ratDiv mult p.amount with
        | .error f => .error f
        | .ok mult' => pathMult es mult' e.src.cur

/-- The loop over the paths, src/models/price.rs 116-145 (`inserted` is only written when the
commodity is met first). -/
def multLoop : List (Node × List Edge) → HMap Cur Rat → HMap Cur Date → Res (HMap Cur Rat)
  | [], ms, _ => .ok ms
  | (k, path) :: rest, ms, inserted =>
    match inserted.get? k.cur with
    | some x =>
      if x > k.date then multLoop rest ms inserted
      else
        match pathMult path.reverse 1 k.cur with
        | .error e => .error e
        | .ok m => multLoop rest (ms.insert k.cur m) inserted
    | none =>
      match pathMult path.reverse 1 k.cur with
      | .error e => .error e
      | .ok m => multLoop rest (ms.insert k.cur m) (inserted.insert k.cur k.date)

/-- The hash orders met by one call of `conversion`: of `prices_nodup`, `nodes` and `paths`. -/
structure ConvOrders where
  prices : Shuf
  nodes : Shuf
  paths : Shuf

/-- `fn conversion`, src/models/price.rs 48-147. -/
def conversion (o : ConvOrders) (target : Cur) (date : Date) (prices : List Price) :
    Res (HMap Cur Rat) :=
  let g := Graph.fromPrices o.prices o.nodes prices ⟨target, date⟩
  match dijkstra g g.nodes.length g.nodes ⟨initDist target date g.nodes, []⟩ with
  | .error e => .error e
  | .ok st => multLoop (o.paths.run st.paths) [] []

/-- `fn convert_balance`, src/commands/balance.rs 266-285, over the entries of the balance in some
order. -/
def convertLoop (ms : HMap Cur Rat) (target : Cur) : List (Option Cur × Money) → Balance →
    Res Balance
  | [], acc => .ok acc
  | (none, _) :: _, _ => .error (.panic "curr.clone().unwrap()")
  | (some c, money) :: rest, acc =>
    match ms.get? c with
    | some mult => convertLoop ms target rest
        (Balance.add acc (Balance.ofMoney (.mk (money.amount * mult) target)))
    | none => convertLoop ms target rest (Balance.add acc (Balance.ofMoney money))

/-- `fn convert_balance`, src/commands/balance.rs 266-285. -/
def convertBalance (s : Shuf) (b : Balance) (ms : HMap Cur Rat) (target : Cur) : Res Balance :=
  convertLoop ms target (s.run b) Balance.new

end Dinero

/-!
Data for the order conditions of `RungeKutta8` (property C52): integer tables.

`matrix` is the Runge-Kutta matrix times `scale`, an entry `(a, b)` standing for `a + b sqrt 21`.
`tab n` lists, for all rooted trees with `n` vertices, the vector of stage weights times
`scale ^ (n-1)`, together with the product of the densities of the root's subtrees.  The tables are
not trusted: `Verif/Core/OrderConditions.lean` proves by evaluation that they are closed under
grafting and therefore cover all trees.
-/

namespace Verif.ODE.Table

abbrev Vec := List (Int × Int)

def scale : Nat := 282240

def matrix : List Vec := [
  [(0, 0), (0, 0), (0, 0), (0, 0), (0, 0), (0, 0), (0, 0), (0, 0), (0, 0), (0, 0), (0, 0)],
  [(141120, 0), (0, 0), (0, 0), (0, 0), (0, 0), (0, 0), (0, 0), (0, 0), (0, 0), (0, 0), (0, 0)],
  [(70560, 0), (70560, 0), (0, 0), (0, 0), (0, 0), (0, 0), (0, 0), (0, 0), (0, 0), (0, 0), (0, 0)],
  [(40320, 0), (-20160, -8640), (120960, 28800), (0, 0), (0, 0), (0, 0), (0, 0), (0, 0), (0, 0), (0, 0), (0, 0)],
  [(36960, 3360), (0, 0), (80640, 17920), (23520, -1120), (0, 0), (0, 0), (0, 0), (0, 0), (0, 0), (0, 0), (0, 0)],
  [(29400, 5880), (0, 0), (70560, 7840), (-181104, 10976), (222264, -24696), (0, 0), (0, 0), (0, 0), (0, 0), (0, 0), (0, 0)],
  [(67200, -6720), (0, 0), (-387072, 82432), (1985088, -454720), (-2032128, 463680), (508032, -104832), (0, 0), (0, 0), (0, 0), (0, 0), (0, 0)],
  [(20160, 0), (0, 0), (0, 0), (0, 0), (31360, -6720), (58240, -13440), (31360, 0), (0, 0), (0, 0), (0, 0), (0, 0)],
  [(8820, 0), (0, 0), (0, 0), (0, 0), (44590, -10290), (43120, 0), (-94325, -18375), (138915, 28665), (0, 0), (0, 0), (0, 0)],
  [(20160, 0), (0, 0), (0, 0), (0, 0), (31360, 0), (-93824, -18816), (288400, 62160), (-257040, -55440), (152064, 32256), (0, 0), (0, 0)],
  [(0, 0), (0, 0), (0, 0), (0, 0), (-658560, 109760), (-112896, 175616), (-1070160, -207760), (1179920, 207760), (175616, -175616), (768320, -109760), (0, 0)]]

/-- the weights times 180 -/
def weights : List Int := [9, 0, 0, 0, 0, 0, 0, 49, 64, 49, 9]

def tab1 : List (Vec × Nat) := [
  ([(1, 0), (1, 0), (1, 0), (1, 0), (1, 0), (1, 0), (1, 0), (1, 0), (1, 0), (1, 0), (1, 0)], 1)]

def tab2 : List (Vec × Nat) := [
  ([(0, 0), (141120, 0), (141120, 0), (141120, 20160), (141120, 20160), (141120, 0), (141120, -20160), (141120, -20160), (141120, 0), (141120, 20160), (282240, 0)], 1)]

def tab3 : List (Vec × Nat) := [
  ([(0, 0), (19914854400, 0), (19914854400, 0), (28449792000, 5689958400), (28449792000, 5689958400), (19914854400, 0), (28449792000, -5689958400), (28449792000, -5689958400), (19914854400, 0), (28449792000, 5689958400), (79659417600, 0)], 1),
  ([(0, 0), (0, 0), (9957427200, 0), (14224896000, 2844979200), (14224896000, 2844979200), (9957427200, 0), (14224896000, -2844979200), (14224896000, -2844979200), (9957427200, 0), (14224896000, 2844979200), (39829708800, 0)], 2)]

def tab4 : List (Vec × Nat) := [
  ([(0, 0), (2810384252928000, 0), (2810384252928000, 0), (6423735435264000, 1376514736128000), (6423735435264000, 1376514736128000), (2810384252928000, 0), (6423735435264000, -1376514736128000), (6423735435264000, -1376514736128000), (2810384252928000, 0), (6423735435264000, 1376514736128000), (22483074023424000, 0)], 1),
  ([(0, 0), (0, 0), (1405192126464000, 0), (3211867717632000, 688257368064000), (3211867717632000, 688257368064000), (1405192126464000, 0), (3211867717632000, -688257368064000), (3211867717632000, -688257368064000), (1405192126464000, 0), (3211867717632000, 688257368064000), (11241537011712000, 0)], 2),
  ([(0, 0), (0, 0), (1405192126464000, 0), (2007417323520000, 401483464704000), (2141245145088000, 458838245376000), (936794750976000, 0), (2141245145088000, -458838245376000), (2141245145088000, -458838245376000), (936794750976000, 0), (2141245145088000, 458838245376000), (7494358007808000, 0)], 3),
  ([(0, 0), (0, 0), (0, 0), (1204450394112000, 286773903360000), (1070622572544000, 229419122688000), (468397375488000, 0), (1070622572544000, -229419122688000), (1070622572544000, -229419122688000), (468397375488000, 0), (1070622572544000, 229419122688000), (3747179003904000, 0)], 6)]

def tab5 : List (Vec × Nat) := [
  ([(0, 0), (396601425773199360000, 0), (396601425773199360000, 0), (1489278823311605760000, 323756265937305600000), (1489278823311605760000, 323756265937305600000), (396601425773199360000, 0), (1489278823311605760000, -323756265937305600000), (1489278823311605760000, -323756265937305600000), (396601425773199360000, 0), (1489278823311605760000, 323756265937305600000), (6345622812371189760000, 0)], 1),
  ([(0, 0), (0, 0), (198300712886599680000, 0), (744639411655802880000, 161878132968652800000), (744639411655802880000, 161878132968652800000), (198300712886599680000, 0), (744639411655802880000, -161878132968652800000), (744639411655802880000, -161878132968652800000), (198300712886599680000, 0), (744639411655802880000, 161878132968652800000), (3172811406185594880000, 0)], 2),
  ([(0, 0), (0, 0), (198300712886599680000, 0), (453258772312227840000, 97126879781191680000), (496426274437201920000, 107918755312435200000), (132200475257733120000, 0), (496426274437201920000, -107918755312435200000), (496426274437201920000, -107918755312435200000), (132200475257733120000, 0), (496426274437201920000, 107918755312435200000), (2115207604123729920000, 0)], 3),
  ([(0, 0), (0, 0), (0, 0), (291380639343575040000, 64751253187461120000), (248213137218600960000, 53959377656217600000), (66100237628866560000, 0), (248213137218600960000, -53959377656217600000), (248213137218600960000, -53959377656217600000), (66100237628866560000, 0), (248213137218600960000, 53959377656217600000), (1057603802061864960000, 0)], 6),
  ([(0, 0), (0, 0), (99150356443299840000, 0), (372319705827901440000, 80939066484326400000), (372319705827901440000, 80939066484326400000), (99150356443299840000, 0), (372319705827901440000, -80939066484326400000), (372319705827901440000, -80939066484326400000), (99150356443299840000, 0), (372319705827901440000, 80939066484326400000), (1586405703092797440000, 0)], 4),
  ([(0, 0), (0, 0), (198300712886599680000, 0), (283286732695142400000, 56657346539028480000), (345340016999792640000, 75543128718704640000), (66100237628866560000, -9442891089838080000), (296776577109196800000, -70147190953082880000), (372319705827901440000, -80939066484326400000), (99150356443299840000, 0), (372319705827901440000, 80939066484326400000), (1586405703092797440000, 0)], 4),
  ([(0, 0), (0, 0), (0, 0), (169972039617085440000, 40469533242163200000), (172670008499896320000, 37771564359352320000), (33050118814433280000, -4721445544919040000), (148388288554598400000, -35073595476541440000), (186159852913950720000, -40469533242163200000), (49575178221649920000, 0), (186159852913950720000, 40469533242163200000), (793202851546398720000, 0)], 8),
  ([(0, 0), (0, 0), (0, 0), (169972039617085440000, 40469533242163200000), (151086257437409280000, 32375626593730560000), (66100237628866560000, 9442891089838080000), (199649697328005120000, -37771564359352320000), (124106568609300480000, -26979688828108800000), (33050118814433280000, 0), (124106568609300480000, 26979688828108800000), (528801901030932480000, 0)], 12),
  ([(0, 0), (0, 0), (0, 0), (0, 0), (21583751062487040000, 5395937765621760000), (-33050118814433280000, -14164336634757120000), (-51261408773406720000, 2697968882810880000), (62053284304650240000, -13489844414054400000), (16525059407216640000, 0), (62053284304650240000, 13489844414054400000), (264400950515466240000, 0)], 24)]

def tab6 : List (Vec × Nat) := [
  ([(0, 0), (55968393205113893683200000, 0), (55968393205113893683200000, 0), (347232480292951503667200000, 75712345327034538393600000), (347232480292951503667200000, 75712345327034538393600000), (55968393205113893683200000, 0), (347232480292951503667200000, -75712345327034538393600000), (347232480292951503667200000, -75712345327034538393600000), (55968393205113893683200000, 0), (347232480292951503667200000, 75712345327034538393600000), (1790988582563644597862400000, 0)], 1),
  ([(0, 0), (0, 0), (27984196602556946841600000, 0), (173616240146475751833600000, 37856172663517269196800000), (173616240146475751833600000, 37856172663517269196800000), (27984196602556946841600000, 0), (173616240146475751833600000, -37856172663517269196800000), (173616240146475751833600000, -37856172663517269196800000), (27984196602556946841600000, 0), (173616240146475751833600000, 37856172663517269196800000), (895494291281822298931200000, 0)], 2),
  ([(0, 0), (0, 0), (27984196602556946841600000, 0), (105083513772866902425600000, 22844242124536283136000000), (115744160097650501222400000, 25237448442344846131200000), (18656131068371297894400000, 0), (115744160097650501222400000, -25237448442344846131200000), (115744160097650501222400000, -25237448442344846131200000), (18656131068371297894400000, 0), (115744160097650501222400000, 25237448442344846131200000), (596996194187881532620800000, 0)], 3),
  ([(0, 0), (0, 0), (0, 0), (68532726373608849408000000, 15011930538980986060800000), (57872080048825250611200000, 12618724221172423065600000), (9328065534185648947200000, 0), (57872080048825250611200000, -12618724221172423065600000), (57872080048825250611200000, -12618724221172423065600000), (9328065534185648947200000, 0), (57872080048825250611200000, 12618724221172423065600000), (298498097093940766310400000, 0)], 6),
  ([(0, 0), (0, 0), (13992098301278473420800000, 0), (86808120073237875916800000, 18928086331758634598400000), (86808120073237875916800000, 18928086331758634598400000), (13992098301278473420800000, 0), (86808120073237875916800000, -18928086331758634598400000), (86808120073237875916800000, -18928086331758634598400000), (13992098301278473420800000, 0), (86808120073237875916800000, 18928086331758634598400000), (447747145640911149465600000, 0)], 4),
  ([(0, 0), (0, 0), (27984196602556946841600000, 0), (63963877948701592780800000, 13706545274721769881600000), (80716322173361533747200000, 17622701067499418419200000), (9328065534185648947200000, -1332580790597949849600000), (71578625323547020492800000, -15882187381820463513600000), (86808120073237875916800000, -18928086331758634598400000), (13992098301278473420800000, 0), (86808120073237875916800000, 18928086331758634598400000), (447747145640911149465600000, 0)], 4),
  ([(0, 0), (0, 0), (0, 0), (41119635824165309644800000, 9137696849814513254400000), (40358161086680766873600000, 8811350533749709209600000), (4664032767092824473600000, -666290395298974924800000), (35789312661773510246400000, -7941093690910231756800000), (43404060036618937958400000, -9464043165879317299200000), (6996049150639236710400000, 0), (43404060036618937958400000, 9464043165879317299200000), (223873572820455574732800000, 0)], 8),
  ([(0, 0), (0, 0), (0, 0), (41119635824165309644800000, 9137696849814513254400000), (35027837924288967475200000, 7614747374845427712000000), (9328065534185648947200000, 1332580790597949849600000), (44165534774103480729600000, -9355261060524382617600000), (28936040024412625305600000, -6309362110586211532800000), (4664032767092824473600000, 0), (28936040024412625305600000, 6309362110586211532800000), (149249048546970383155200000, 0)], 12),
  ([(0, 0), (0, 0), (0, 0), (0, 0), (5330323162391799398400000, 1196603158904281497600000), (-4664032767092824473600000, -1998871185896924774400000), (-8376222112329970483200000, 1414167369614150860800000), (14468020012206312652800000, -3154681055293105766400000), (2332016383546412236800000, 0), (14468020012206312652800000, 3154681055293105766400000), (74624524273485191577600000, 0)], 24),
  ([(0, 0), (0, 0), (13992098301278473420800000, 0), (52541756886433451212800000, 11422121062268141568000000), (57872080048825250611200000, 12618724221172423065600000), (9328065534185648947200000, 0), (57872080048825250611200000, -12618724221172423065600000), (57872080048825250611200000, -12618724221172423065600000), (9328065534185648947200000, 0), (57872080048825250611200000, 12618724221172423065600000), (298498097093940766310400000, 0)], 6),
  ([(0, 0), (0, 0), (0, 0), (34266363186804424704000000, 7505965269490493030400000), (28936040024412625305600000, 6309362110586211532800000), (4664032767092824473600000, 0), (28936040024412625305600000, -6309362110586211532800000), (28936040024412625305600000, -6309362110586211532800000), (4664032767092824473600000, 0), (28936040024412625305600000, 6309362110586211532800000), (149249048546970383155200000, 0)], 12),
  ([(0, 0), (0, 0), (27984196602556946841600000, 0), (39977423717938495488000000, 7995484743587699097600000), (59395029523794336153600000, 13053852642592161792000000), (-3997742371793849548800000, -3997742371793849548800000), (38835211611711681331200000, -10769428430138533478400000), (70817150586062477721600000, -15338276855045790105600000), (9994355929484623872000000, 0), (70817150586062477721600000, 15338276855045790105600000), (351801328717858760294400000, 0)], 5),
  ([(0, 0), (0, 0), (0, 0), (23986454230763097292800000, 5711060531134070784000000), (29697514761897168076800000, 6526926321296080896000000), (-1998871185896924774400000, -1998871185896924774400000), (19417605805855840665600000, -5384714215069266739200000), (35408575293031238860800000, -7669138427522895052800000), (4997177964742311936000000, 0), (35408575293031238860800000, 7669138427522895052800000), (175900664358929380147200000, 0)], 10),
  ([(0, 0), (0, 0), (0, 0), (23986454230763097292800000, 5711060531134070784000000), (24367191599505368678400000, 5330323162391799398400000), (8661775138886674022400000, 666290395298974924800000), (4721143372404165181440000, 65269263212960808960000), (23605716862020825907200000, -5112758951681930035200000), (3331451976494874624000000, 0), (23605716862020825907200000, 5112758951681930035200000), (117267109572619586764800000, 0)], 15),
  ([(0, 0), (0, 0), (0, 0), (0, 0), (5330323162391799398400000, 1196603158904281497600000), (-10660646324783598796800000, -2665161581195899699200000), (14696462433451675484160000, -5449983478282227548160000), (11802858431010412953600000, -2556379475840965017600000), (1665725988247437312000000, 0), (11802858431010412953600000, 2556379475840965017600000), (58633554786309793382400000, 0)], 30),
  ([(0, 0), (0, 0), (0, 0), (11993227115381548646400000, 2855530265567035392000000), (14848757380948584038400000, 3263463160648040448000000), (-999435592948462387200000, -999435592948462387200000), (9708802902927920332800000, -2692357107534633369600000), (17704287646515619430400000, -3834569213761447526400000), (2498588982371155968000000, 0), (17704287646515619430400000, 3834569213761447526400000), (87950332179464690073600000, 0)], 20),
  ([(0, 0), (0, 0), (0, 0), (23986454230763097292800000, 5711060531134070784000000), (21321292649567197593600000, 4568848424907256627200000), (13325807905979498496000000, 2665161581195899699200000), (32743413711835339161600000, -5112758951681930035200000), (15990969487175398195200000, -3589809476712844492800000), (3997742371793849548800000, 0), (15990969487175398195200000, 3589809476712844492800000), (95945816923052389171200000, 0)], 20),
  ([(0, 0), (0, 0), (0, 0), (0, 0), (3045898949938171084800000, 761474737484542771200000), (-2665161581195899699200000, -1332580790597949849600000), (-4949585793649528012800000, 489519474097206067200000), (7995484743587699097600000, -1794904738356422246400000), (1998871185896924774400000, 0), (7995484743587699097600000, 1794904738356422246400000), (47972908461526194585600000, 0)], 40),
  ([(0, 0), (0, 0), (0, 0), (0, 0), (3045898949938171084800000, 761474737484542771200000), (-4664032767092824473600000, -1998871185896924774400000), (-28022270339431173980160000, 5178028214894890844160000), (7614747374845427712000000, -1522949474969085542400000), (-666290395298974924800000, 0), (7614747374845427712000000, 1522949474969085542400000), (21321292649567197593600000, 0)], 60),
  ([(0, 0), (0, 0), (0, 0), (0, 0), (0, 0), (1998871185896924774400000, 666290395298974924800000), (23072684545781645967360000, -4688508740797684776960000), (380737368742271385600000, -271955263387336704000000), (2665161581195899699200000, 0), (380737368742271385600000, 271955263387336704000000), (26651615811958996992000000, 0)], 120)]

def tab7 : List (Vec × Nat) := [
  ([(0, 0), (7898259649105672676573184000000, 0), (7898259649105672676573184000000, 0), (81055026136594658371829760000000, 17684732975257016372035584000000), (81055026136594658371829760000000, 17684732975257016372035584000000), (7898259649105672676573184000000, 0), (81055026136594658371829760000000, -17684732975257016372035584000000), (81055026136594658371829760000000, -17684732975257016372035584000000), (7898259649105672676573184000000, 0), (81055026136594658371829760000000, 17684732975257016372035584000000), (505488617542763051300683776000000, 0)], 1),
  ([(0, 0), (0, 0), (3949129824552836338286592000000, 0), (40527513068297329185914880000000, 8842366487628508186017792000000), (40527513068297329185914880000000, 8842366487628508186017792000000), (3949129824552836338286592000000, 0), (40527513068297329185914880000000, -8842366487628508186017792000000), (40527513068297329185914880000000, -8842366487628508186017792000000), (3949129824552836338286592000000, 0), (40527513068297329185914880000000, 8842366487628508186017792000000), (252744308771381525650341888000000, 0)], 2),
  ([(0, 0), (0, 0), (3949129824552836338286592000000, 0), (24500723809470658098757632000000, 5342263086275557029052416000000), (27018342045531552790609920000000, 5894910991752338790678528000000), (2632753216368557558857728000000, 0), (27018342045531552790609920000000, -5894910991752338790678528000000), (27018342045531552790609920000000, -5894910991752338790678528000000), (2632753216368557558857728000000, 0), (27018342045531552790609920000000, 5894910991752338790678528000000), (168496205847587683766894592000000, 0)], 3),
  ([(0, 0), (0, 0), (0, 0), (16026789258826671087157248000000, 3500103401352951156965376000000), (13509171022765776395304960000000, 2947455495876169395339264000000), (1316376608184278779428864000000, 0), (13509171022765776395304960000000, -2947455495876169395339264000000), (13509171022765776395304960000000, -2947455495876169395339264000000), (1316376608184278779428864000000, 0), (13509171022765776395304960000000, 2947455495876169395339264000000), (84248102923793841883447296000000, 0)], 6),
  ([(0, 0), (0, 0), (1974564912276418169143296000000, 0), (20263756534148664592957440000000, 4421183243814254093008896000000), (20263756534148664592957440000000, 4421183243814254093008896000000), (1974564912276418169143296000000, 0), (20263756534148664592957440000000, -4421183243814254093008896000000), (20263756534148664592957440000000, -4421183243814254093008896000000), (1974564912276418169143296000000, 0), (20263756534148664592957440000000, 4421183243814254093008896000000), (126372154385690762825170944000000, 0)], 4),
  ([(0, 0), (0, 0), (3949129824552836338286592000000, 0), (14829385463626977270300672000000, 3223779448614560276152320000000), (18851434109041333424357376000000, 4114156629660486447661056000000), (1316376608184278779428864000000, -188053801169182682775552000000), (16825058455626466965061632000000, -3684319369845211744174080000000), (20263756534148664592957440000000, -4421183243814254093008896000000), (1974564912276418169143296000000, 0), (20263756534148664592957440000000, 4421183243814254093008896000000), (126372154385690762825170944000000, 0)], 4),
  ([(0, 0), (0, 0), (0, 0), (9671338345843680828456960000000, 2118483637660996752900096000000), (9425717054520666712178688000000, 2057078314830243223830528000000), (658188304092139389714432000000, -94026900584591341387776000000), (8412529227813233482530816000000, -1842159684922605872087040000000), (10131878267074332296478720000000, -2210591621907127046504448000000), (987282456138209084571648000000, 0), (10131878267074332296478720000000, 2210591621907127046504448000000), (63186077192845381412585472000000, 0)], 8),
  ([(0, 0), (0, 0), (0, 0), (9671338345843680828456960000000, 2118483637660996752900096000000), (8166907936490219366252544000000, 1780754362091852343017472000000), (1316376608184278779428864000000, 188053801169182682775552000000), (10193283589905085825548288000000, -2210591621907127046504448000000), (6754585511382888197652480000000, -1473727747938084697669632000000), (658188304092139389714432000000, 0), (6754585511382888197652480000000, 1473727747938084697669632000000), (42124051461896920941723648000000, 0)], 12),
  ([(0, 0), (0, 0), (0, 0), (0, 0), (1258809118030447345926144000000, 276323952738390880813056000000), (-658188304092139389714432000000, -282080701753774024163328000000), (-1780754362091852343017472000000, 368431936984521174417408000000), (3377292755691444098826240000000, -736863873969042348834816000000), (329094152046069694857216000000, 0), (3377292755691444098826240000000, 736863873969042348834816000000), (21062025730948460470861824000000, 0)], 24),
  ([(0, 0), (0, 0), (1974564912276418169143296000000, 0), (12250361904735329049378816000000, 2671131543137778514526208000000), (13509171022765776395304960000000, 2947455495876169395339264000000), (1316376608184278779428864000000, 0), (13509171022765776395304960000000, -2947455495876169395339264000000), (13509171022765776395304960000000, -2947455495876169395339264000000), (1316376608184278779428864000000, 0), (13509171022765776395304960000000, 2947455495876169395339264000000), (84248102923793841883447296000000, 0)], 6),
  ([(0, 0), (0, 0), (0, 0), (8013394629413335543578624000000, 1750051700676475578482688000000), (6754585511382888197652480000000, 1473727747938084697669632000000), (658188304092139389714432000000, 0), (6754585511382888197652480000000, -1473727747938084697669632000000), (6754585511382888197652480000000, -1473727747938084697669632000000), (658188304092139389714432000000, 0), (6754585511382888197652480000000, 1473727747938084697669632000000), (42124051461896920941723648000000, 0)], 12),
  ([(0, 0), (0, 0), (3949129824552836338286592000000, 0), (9026582456120768773226496000000, 1934267669168736165691392000000), (13908305621165674334257152000000, 3039563480122299688943616000000), (-564161403507548048326656000000, -564161403507548048326656000000), (10039770282828202002874368000000, -2302699606153257340108800000000), (16487329180057322555179008000000, -3592211385599081450569728000000), (1410403508768870120816640000000, 0), (16487329180057322555179008000000, 3592211385599081450569728000000), (99292407017328456505491456000000, 0)], 5),
  ([(0, 0), (0, 0), (0, 0), (5802803007506208497074176000000, 1289511779445824110460928000000), (6954152810582837167128576000000, 1519781740061149844471808000000), (-282080701753774024163328000000, -282080701753774024163328000000), (5019885141414101001437184000000, -1151349803076628670054400000000), (8243664590028661277589504000000, -1796105692799540725284864000000), (705201754384435060408320000000, 0), (8243664590028661277589504000000, 1796105692799540725284864000000), (49646203508664228252745728000000, 0)], 10),
  ([(0, 0), (0, 0), (0, 0), (5802803007506208497074176000000, 1289511779445824110460928000000), (5695343692552389821202432000000, 1243457787322758963658752000000), (1222349707599687438041088000000, 94026900584591341387776000000), (638615357439836702323507200000, -85967451963054940697395200000), (5495776393352440851726336000000, -1197403795199693816856576000000), (470134502922956706938880000000, 0), (5495776393352440851726336000000, 1197403795199693816856576000000), (33097469005776152168497152000000, 0)], 15),
  ([(0, 0), (0, 0), (0, 0), (0, 0), (1258809118030447345926144000000, 276323952738390880813056000000), (-1504430409353461462204416000000, -376107602338365365551104000000), (4381269783974264299113676800000, -1065382351113573729357004800000), (2747888196676220425863168000000, -598701897599846908428288000000), (235067251461478353469440000000, 0), (2747888196676220425863168000000, 598701897599846908428288000000), (16548734502888076084248576000000, 0)], 30),
  ([(0, 0), (0, 0), (0, 0), (2901401503753104248537088000000, 644755889722912055230464000000), (3477076405291418583564288000000, 759890870030574922235904000000), (-141040350876887012081664000000, -141040350876887012081664000000), (2509942570707050500718592000000, -575674901538314335027200000000), (4121832295014330638794752000000, -898052846399770362642432000000), (352600877192217530204160000000, 0), (4121832295014330638794752000000, 898052846399770362642432000000), (24823101754332114126372864000000, 0)], 20),
  ([(0, 0), (0, 0), (0, 0), (5802803007506208497074176000000, 1289511779445824110460928000000), (4943128487875659090100224000000, 1074593149538186758717440000000), (1880538011691826827755520000000, 376107602338365365551104000000), (6785288172798264962187264000000, -1381619763691954404065280000000), (3776427354091342037778432000000, -828971858215172642439168000000), (564161403507548048326656000000, 0), (3776427354091342037778432000000, 828971858215172642439168000000), (27079747368362306319679488000000, 0)], 20),
  ([(0, 0), (0, 0), (0, 0), (0, 0), (752215204676730731102208000000, 168864637784572204941312000000), (-376107602338365365551104000000, -188053801169182682775552000000), (-905728511753614553776128000000, 168864637784572204941312000000), (1888213677045671018889216000000, -414485929107586321219584000000), (282080701753774024163328000000, 0), (1888213677045671018889216000000, 414485929107586321219584000000), (13539873684181153159839744000000, 0)], 40),
  ([(0, 0), (0, 0), (0, 0), (0, 0), (752215204676730731102208000000, 168864637784572204941312000000), (-658188304092139389714432000000, -282080701753774024163328000000), (-6146672815358428259863756800000, 1295652311728899463367884800000), (1719349039261098813947904000000, -368431936984521174417408000000), (-94026900584591341387776000000, 0), (1719349039261098813947904000000, 368431936984521174417408000000), (6017721637413845848817664000000, 0)], 60),
  ([(0, 0), (0, 0), (0, 0), (0, 0), (0, 0), (282080701753774024163328000000, 94026900584591341387776000000), (5240944303604813706087628800000, -1126787673944327258426572800000), (168864637784572204941312000000, -46053992123065146802176000000), (376107602338365365551104000000, 0), (168864637784572204941312000000, 46053992123065146802176000000), (7522152046767307311022080000000, 0)], 120),
  ([(0, 0), (0, 0), (987282456138209084571648000000, 0), (10131878267074332296478720000000, 2210591621907127046504448000000), (10131878267074332296478720000000, 2210591621907127046504448000000), (987282456138209084571648000000, 0), (10131878267074332296478720000000, -2210591621907127046504448000000), (10131878267074332296478720000000, -2210591621907127046504448000000), (987282456138209084571648000000, 0), (10131878267074332296478720000000, 2210591621907127046504448000000), (63186077192845381412585472000000, 0)], 8),
  ([(0, 0), (0, 0), (1974564912276418169143296000000, 0), (7414692731813488635150336000000, 1611889724307280138076160000000), (9425717054520666712178688000000, 2057078314830243223830528000000), (658188304092139389714432000000, -94026900584591341387776000000), (8412529227813233482530816000000, -1842159684922605872087040000000), (10131878267074332296478720000000, -2210591621907127046504448000000), (987282456138209084571648000000, 0), (10131878267074332296478720000000, 2210591621907127046504448000000), (63186077192845381412585472000000, 0)], 8),
  ([(0, 0), (0, 0), (0, 0), (4835669172921840414228480000000, 1059241818830498376450048000000), (4712858527260333356089344000000, 1028539157415121611915264000000), (329094152046069694857216000000, -47013450292295670693888000000), (4206264613906616741265408000000, -921079842461302936043520000000), (5065939133537166148239360000000, -1105295810953563523252224000000), (493641228069104542285824000000, 0), (5065939133537166148239360000000, 1105295810953563523252224000000), (31593038596422690706292736000000, 0)], 16),
  ([(0, 0), (0, 0), (0, 0), (4835669172921840414228480000000, 1059241818830498376450048000000), (4083453968245109683126272000000, 890377181045926171508736000000), (658188304092139389714432000000, 94026900584591341387776000000), (5096641794952542912774144000000, -1105295810953563523252224000000), (3377292755691444098826240000000, -736863873969042348834816000000), (329094152046069694857216000000, 0), (3377292755691444098826240000000, 736863873969042348834816000000), (21062025730948460470861824000000, 0)], 24),
  ([(0, 0), (0, 0), (0, 0), (0, 0), (629404559015223672963072000000, 138161976369195440406528000000), (-329094152046069694857216000000, -141040350876887012081664000000), (-890377181045926171508736000000, 184215968492260587208704000000), (1688646377845722049413120000000, -368431936984521174417408000000), (164547076023034847428608000000, 0), (1688646377845722049413120000000, 368431936984521174417408000000), (10531012865474230235430912000000, 0)], 48),
  ([(0, 0), (0, 0), (1974564912276418169143296000000, 0), (7414692731813488635150336000000, 1611889724307280138076160000000), (9006114015177184263536640000000, 1964970330584112930226176000000), (877584405456185852952576000000, 0), (9006114015177184263536640000000, -1964970330584112930226176000000), (9006114015177184263536640000000, -1964970330584112930226176000000), (877584405456185852952576000000, 0), (9006114015177184263536640000000, 1964970330584112930226176000000), (56165401949195894588964864000000, 0)], 9),
  ([(0, 0), (0, 0), (0, 0), (4835669172921840414228480000000, 1059241818830498376450048000000), (4503057007588592131768320000000, 982485165292056465113088000000), (438792202728092926476288000000, 0), (4503057007588592131768320000000, -982485165292056465113088000000), (4503057007588592131768320000000, -982485165292056465113088000000), (438792202728092926476288000000, 0), (4503057007588592131768320000000, 982485165292056465113088000000), (28082700974597947294482432000000, 0)], 18),
  ([(0, 0), (0, 0), (0, 0), (3177725456491495129350144000000, 690809881845977202032640000000), (2251528503794296065884160000000, 491242582646028232556544000000), (219396101364046463238144000000, 0), (2251528503794296065884160000000, -491242582646028232556544000000), (2251528503794296065884160000000, -491242582646028232556544000000), (219396101364046463238144000000, 0), (2251528503794296065884160000000, 491242582646028232556544000000), (14041350487298973647241216000000, 0)], 36),
  ([(0, 0), (0, 0), (3949129824552836338286592000000, 0), (5641614035075480483266560000000, 1128322807015096096653312000000), (10899444802458751409848320000000, 2394807590399387633713152000000), (-3573022222214470972735488000000, -1208917293230460103557120000000), (4682155865844956591554560000000, -1703997708553410431680512000000), (14353494211688637420011520000000, -3085617472245364835745792000000), (658188304092139389714432000000, 0), (14353494211688637420011520000000, 3085617472245364835745792000000), (79734811695733457496834048000000, 0)], 6),
  ([(0, 0), (0, 0), (0, 0), (3384968421045288289959936000000, 805944862153640069038080000000), (5449722401229375704924160000000, 1197403795199693816856576000000), (-1786511111107235486367744000000, -604458646615230051778560000000), (2341077932922478295777280000000, -851998854276705215840256000000), (7176747105844318710005760000000, -1542808736122682417872896000000), (329094152046069694857216000000, 0), (7176747105844318710005760000000, 1542808736122682417872896000000), (39867405847866728748417024000000, 0)], 12),
  ([(0, 0), (0, 0), (0, 0), (3384968421045288289959936000000, 805944862153640069038080000000), (4190913283198928358998016000000, 921079842461302936043520000000), (846242105261322072489984000000, -13432414369227334483968000000), (-359221138559908145056972800000, 297815815729154615987404800000), (4784498070562879140003840000000, -1028539157415121611915264000000), (219396101364046463238144000000, 0), (4784498070562879140003840000000, 1028539157415121611915264000000), (26578270565244485832278016000000, 0)], 18),
  ([(0, 0), (0, 0), (0, 0), (0, 0), (1258809118030447345926144000000, 276323952738390880813056000000), (-2632753216368557558857728000000, -591026232246002717294592000000), (2700299071482386440834252800000, -1149814670005859831827660800000), (2392249035281439570001920000000, -514269578707560805957632000000), (109698050682023231619072000000, 0), (2392249035281439570001920000000, 514269578707560805957632000000), (13289135282622242916139008000000, 0)], 36),
  ([(0, 0), (0, 0), (0, 0), (1692484210522644144979968000000, 402972431076820034519040000000), (2724861200614687852462080000000, 598701897599846908428288000000), (-893255555553617743183872000000, -302229323307615025889280000000), (1170538966461239147888640000000, -425999427138352607920128000000), (3588373552922159355002880000000, -771404368061341208936448000000), (164547076023034847428608000000, 0), (3588373552922159355002880000000, 771404368061341208936448000000), (19933702923933364374208512000000, 0)], 24),
  ([(0, 0), (0, 0), (0, 0), (3384968421045288289959936000000, 805944862153640069038080000000), (3438698078522197627895808000000, 752215204676730731102208000000), (2350672514614783534694400000000, 362675187969138031067136000000), (500453381070641261916979200000, 389923799975284909591756800000), (3208428117906871893884928000000, -690809881845977202032640000000), (235067251461478353469440000000, -60445864661523005177856000000), (3945291991875914242719744000000, 875025850338237789241344000000), (19557595321594999008657408000000, -573116346420366271315968000000)], 24),
  ([(0, 0), (0, 0), (0, 0), (0, 0), (752215204676730731102208000000, 168864637784572204941312000000), (-940269005845913413877760000000, -241783458646092020711424000000), (1991067592787183180080742400000, -578745167679852011480678400000), (1604214058953435946942464000000, -345404940922988601016320000000), (117533625730739176734720000000, -30222932330761502588928000000), (1972645995937957121359872000000, 437512925169118894620672000000), (9778797660797499504328704000000, -286558173210183135657984000000)], 48),
  ([(0, 0), (0, 0), (0, 0), (0, 0), (752215204676730731102208000000, 168864637784572204941312000000), (-1504430409353461462204416000000, -376107602338365365551104000000), (-859674519630549406973952000000, -92107984246130293604352000000), (1576069952656007246118912000000, -337729275569144409882624000000), (-15671150097431890231296000000, 60445864661523005177856000000), (839206078686964897284096000000, 153513307076883822673920000000), (7020675243649486823620608000000, 573116346420366271315968000000)], 72),
  ([(0, 0), (0, 0), (0, 0), (0, 0), (0, 0), (564161403507548048326656000000, 134324143692273344839680000000), (2850742112417732587054694400000, -486637183433721717876326400000), (28144106297428700823552000000, -7675665353844191133696000000), (133204775828171066966016000000, -90668796992284507766784000000), (1133439917250992224075776000000, 283999618092235071946752000000), (2758122417148012680708096000000, -859674519630549406973952000000)], 144),
  ([(0, 0), (0, 0), (0, 0), (1692484210522644144979968000000, 402972431076820034519040000000), (2095456641599464179499008000000, 460539921230651468021760000000), (423121052630661036244992000000, -6716207184613667241984000000), (-179610569279954072528486400000, 148907907864577307993702400000), (2392249035281439570001920000000, -514269578707560805957632000000), (109698050682023231619072000000, 0), (2392249035281439570001920000000, 514269578707560805957632000000), (13289135282622242916139008000000, 0)], 36),
  ([(0, 0), (0, 0), (0, 0), (0, 0), (629404559015223672963072000000, 138161976369195440406528000000), (-1316376608184278779428864000000, -295513116123001358647296000000), (1350149535741193220417126400000, -574907335002929915913830400000), (1196124517640719785000960000000, -257134789353780402978816000000), (54849025341011615809536000000, 0), (1196124517640719785000960000000, 257134789353780402978816000000), (6644567641311121458069504000000, 0)], 72),
  ([(0, 0), (0, 0), (0, 0), (3384968421045288289959936000000, 805944862153640069038080000000), (3008860818706922924408832000000, 644755889722912055230464000000), (3008860818706922924408832000000, 644755889722912055230464000000), (5357614416983245411319808000000, -598701897599846908428288000000), (2133834968368685135167488000000, -506593913353716614823936000000), (752215204676730731102208000000, 0), (2133834968368685135167488000000, 506593913353716614823936000000), (19557595321594999008657408000000, 0)], 30),
  ([(0, 0), (0, 0), (0, 0), (0, 0), (429837259815274703486976000000, 107459314953818675871744000000), (188053801169182682775552000000, -53729657476909337935872000000), (-330053610215300218748928000000, 130486311015351249272832000000), (1066917484184342567583744000000, -253296956676858307411968000000), (376107602338365365551104000000, 0), (1066917484184342567583744000000, 253296956676858307411968000000), (9778797660797499504328704000000, 0)], 60),
  ([(0, 0), (0, 0), (0, 0), (0, 0), (429837259815274703486976000000, 107459314953818675871744000000), (-376107602338365365551104000000, -188053801169182682775552000000), (-1601143792811898270488985600000, 326983344073762542295449600000), (476402962961929463031398400000, -72151254326135396656742400000), (39177875243579725578240000000, -110817418546125509492736000000), (1526433983367814810121011200000, 366896803913752336190668800000), (4864324990242858727794278400000, -816690793649021936625254400000)], 90),
  ([(0, 0), (0, 0), (0, 0), (0, 0), (0, 0), (564161403507548048326656000000, 134324143692273344839680000000), (1271090182596598051740057600000, -196497033058411293022617600000), (590514521222413104552345600000, -181145702350722910755225600000), (336929727094785639972864000000, 110817418546125509492736000000), (-459516499183472242537267200000, -113599847236894028778700800000), (4914472670554640776534425600000, 816690793649021936625254400000)], 180),
  ([(0, 0), (0, 0), (0, 0), (0, 0), (214918629907637351743488000000, 53729657476909337935872000000), (94026900584591341387776000000, -26864828738454668967936000000), (-165026805107650109374464000000, 65243155507675624636416000000), (533458742092171283791872000000, -126648478338429153705984000000), (188053801169182682775552000000, 0), (533458742092171283791872000000, 126648478338429153705984000000), (4889398830398749752164352000000, 0)], 120),
  ([(0, 0), (0, 0), (0, 0), (0, 0), (429837259815274703486976000000, 107459314953818675871744000000), (-658188304092139389714432000000, -282080701753774024163328000000), (-4857161035912604149402828800000, 988625697575131818020044800000), (1074593149538186758717440000000, -184215968492260587208704000000), (-517147953215252377632768000000, -60445864661523005177856000000), (1811457023507229107552256000000, 368431936984521174417408000000), (0, -573116346420366271315968000000)], 120),
  ([(0, 0), (0, 0), (0, 0), (0, 0), (0, 0), (282080701753774024163328000000, 94026900584591341387776000000), (2804688120294667440252518400000, -532691175556786864678502400000), (53729657476909337935872000000, -23026996061532573401088000000), (164547076023034847428608000000, -30222932330761502588928000000), (422161594461430512353280000000, 115134980307662867005440000000), (2256645614030192193306624000000, -286558173210183135657984000000)], 240),
  ([(0, 0), (0, 0), (0, 0), (0, 0), (0, 0), (282080701753774024163328000000, 94026900584591341387776000000), (3256017243100705878913843200000, -661642353501369275724595200000), (-598190186576257295686041600000, 112064714166125190551961600000), (556325828458832103211008000000, -50371553884602504314880000000), (-285023040139414297431244800000, -1535133070768838226739200000), (4864324990242858727794278400000, -243574447228655665309286400000)], 360),
  ([(0, 0), (0, 0), (0, 0), (0, 0), (0, 0), (0, 0), (-451329122806038438661324800000, 128951177944582411046092800000), (651919844053166633621913600000, -135091710227657763953049600000), (-391778752435797255782400000000, 20148621553841001725952000000), (707184634600844809784524800000, 116670113378431705232179200000), (-2607679376212666534487654400000, -42983725981527470348697600000)], 720)]

end Verif.ODE.Table

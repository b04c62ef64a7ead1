/-
The table `exp_lut` of include/ldaplusplus/utils.hpp:15-358, copied literal by literal; each entry is
the decimal fraction of the source times 10^18.
-/
namespace Verif.FastExp

/-- `exp_lut` (utils.hpp:15-358), in units of 10^-18. -/
def lutNat : List Nat := [
  1000000000000000000, 1000977995032110268, 1001956946538503423, 1002936855454606535,
  1003917722716761274, 1004899549262225911, 1005882336029174207, 1006866083956698077,
  1007850793984808035, 1008836467054433639, 1009823104107424596, 1010810706086551880,
  1011799273935508392, 1012788808598910073, 1013779311022296792, 1014770782152132789,
  1015763222935808230, 1016756634321639652, 1017751017258871515, 1018746372697675762,
  1019742701589154477, 1020740004885339447, 1021738283539193493, 1022737538504611798,
  1023737770736421915, 1024738981190385756, 1025741170823199822, 1026744340592495863,
  1027748491456842661, 1028753624375746245, 1029759740309651228, 1030766840219941249,
  1031774925068940307, 1032783995819913647, 1033794053437068428, 1034805098885555052,
  1035817133131467616, 1036830157141844788, 1037844171884671818, 1038859178328879640,
  1039875177444347321, 1040892170201902722, 1041910157573322726, 1042929140531334564,
  1043949120049617374, 1044970097102801754, 1045992072666471984, 1047015047717166691,
  1048039023232378630, 1049064000190557788, 1050089979571109833, 1051116962354399220,
  1052144949521748529, 1053173942055440682, 1054203940938718942, 1055234947155788250,
  1056266961691815665, 1057299985532932585, 1058334019666233861, 1059369065079780903,
  1060405122762600127, 1061442193704686288, 1062480278897001806, 1063519379331478110,
  1064559496001017402, 1065600629899492224, 1066642782021747449, 1067685953363600948,
  1068730144921844483, 1069775357694244589, 1070821592679543466, 1071868850877460533,
  1072917133288692426, 1073966440914914777, 1075016774758782656, 1076068135823932126,
  1077120525114980021, 1078173943637526611, 1079228392398154712, 1080283872404432577,
  1081340384664913001, 1082397930189135327, 1083456509987626770, 1084516125071902204,
  1085576776454466152, 1086638465148812793, 1087701192169428399, 1088764958531790450,
  1089829765252370297, 1090895613348632942, 1091962503839038812, 1093030437743044203,
  1094099416081102172, 1095169439874664308, 1096240510146180736, 1097312627919101669,
  1098385794217878519, 1099460010067964122, 1100535276495814507, 1101611594528889571,
  1102688965195653736, 1103767389525577958, 1104846868549139272, 1105927403297823020,
  1107008994804122848, 1108091644101542705, 1109175352224596844, 1110260120208811818,
  1111345949090726037, 1112432839907892657, 1113520793698878908, 1114609811503268100,
  1115699894361659616, 1116791043315671139, 1117883259407939311, 1118976543682119518,
  1120070897182888547, 1121166320955944595, 1122262816048008816, 1123360383506825988,
  1124459024381165184, 1125558739720821544, 1126659530576616719, 1127761398000400428,
  1128864343045050456, 1129968366764475096, 1131073470213612486, 1132179654448433048,
  1133286920525939934, 1134395269504169912, 1135504702442194480, 1136615220400120752,
  1137726824439093010, 1138839515621292930, 1139953295009941581, 1141068163669298974,
  1142184122664666734, 1143301173062388099, 1144419315929849024, 1145538552335479299,
  1146658883348754321, 1147780310040194429, 1148902833481367791, 1150026454744889959,
  1151151174904425867, 1152276995034690277, 1153403916211449332, 1154531939511520555,
  1155661066012775517, 1156791296794139168, 1157922632935592278, 1159055075518171440,
  1160188625623970404, 1161323284336141404, 1162459052738896270, 1163595931917506432,
  1164733922958305579, 1165873026948688995, 1167013244977116226, 1168154578133110855,
  1169297027507261832, 1170440594191225259, 1171585279277724378, 1172731083860551582,
  1173878009034568626, 1175026055895707744, 1176175225540974090, 1177325519068444182,
  1178476937577269901, 1179629482167676935, 1180783153940967667, 1181937953999521618,
  1183093883446795669, 1184250943387326727, 1185409134926731500, 1186568459171707834,
  1187728917230036485, 1188890510210581342, 1190053239223290316, 1191217105379197339,
  1192382109790423028, 1193548253570175355, 1194715537832750751, 1195883963693536112,
  1197053532269008791, 1198224244676737937, 1199396102035385825, 1200569105464708963,
  1201743256085558542, 1202918555019882207, 1204095003390724949, 1205272602322229991,
  1206451352939639676, 1207631256369297246, 1208812313738647726, 1209994526176237706,
  1211177894811718669, 1212362420775846328, 1213548105200482397, 1214734949218595261,
  1215922953964261755, 1217112120572667600, 1218302450180108965, 1219493943923992907,
  1220686602942839150, 1221880428376280747, 1223075421365065640, 1224271583051056878,
  1225468914577234614, 1226667417087696776, 1227867091727659954, 1229067939643461393,
  1230269961982558780, 1231473159893532010, 1232677534526085195, 1233883087031045545,
  1235089818560366925, 1236297730267128969, 1237506823305539294, 1238717098830934837,
  1239928557999781411, 1241141201969676811, 1242355031899350593, 1243570048948665407,
  1244786254278618332, 1246003649051341977, 1247222234430105381, 1248442011579315558,
  1249662981664517947, 1250885145852397962, 1252108505310782105, 1253333061208639077,
  1254558814716080661, 1255785767004363285, 1257013919245888234, 1258243272614204322,
  1259473828284007002, 1260705587431141694, 1261938551232603123, 1263172720866537091,
  1264408097512241813, 1265644682350168804, 1266882476561923987, 1268121481330269251,
  1269361697839122449, 1270603127273560284, 1271845770819817423, 1273089629665289824,
  1274334704998533629, 1275580998009267830, 1276828509888375152, 1278077241827902721,
  1279327195021063623, 1280578370662237786, 1281830769946973314, 1283084394071987600,
  1284339244235168209, 1285595321635574440, 1286852627473438426, 1288111162950165367,
  1289370929268336408, 1290631927631708420, 1291894159245215112, 1293157625314969250,
  1294422327048262655, 1295688265653568649, 1296955442340541387, 1298223858320018742,
  1299493514804022753, 1300764413005760733, 1302036554139626157, 1303309939421200658,
  1304584570067254479, 1305860447295748017, 1307137572325832497, 1308415946377851968,
  1309695570673343301, 1310976446435038634, 1312258574886865814, 1313541957253949288,
  1314826594762612100, 1316112488640376332, 1317399640115964887, 1318688050419302149,
  1319977720781515540, 1321268652434935964, 1322560846613100471, 1323854304550751593,
  1325149027483840003, 1326445016649525188, 1327742273286175889, 1329040798633372544,
  1330340593931907733, 1331641660423787732, 1332943999352233400, 1334247611961681068,
  1335552499497784540, 1336858663207415976, 1338166104338666340, 1339474824140847842,
  1340784823864494379, 1342096104761362874, 1343408668084433932, 1344722515087914516,
  1346037647027237272, 1347354065159063197, 1348671770741282527, 1349990765033014739,
  1351311049294611877, 1352632624787657667, 1353955492774970404, 1355279654520602728,
  1356605111289844068, 1357931864349220863, 1359259914966498561, 1360589264410682508,
  1361919913952018835, 1363251864861995788, 1364585118413345954, 1365919675880045814,
  1367255538537318182, 1368592707661632879, 1369931184530708501, 1371270970423512425,
  1372612066620263693, 1373954474402432790, 1375298195052744088, 1376643229855176065,
  1377989580094962641, 1379337247058595173, 1380686232033823124, 1382036536309655395,
  1383388161176360986, 1384741107925471670, 1386095377849781762, 1387450972243349678,
  1388807892401500377, 1390166139620824470, 1391525715199181779, 1392886620435700218,
  1394248856630779132, 1395612425086089514, 1396977327104575117, 1398343563990454008,
  1399711137049220122, 1401080047587643707, 1402450296913773320, 1403821886336936497,
  1405194817167741750, 1406569090718078785, 1407944708301120951, 1409321671231325457,
  1410699980824435151, 1412079638397479409, 1413460645268776350, 1414843002757932622,
  1416226712185845837, 1417611774874705466, 1418998192147993942, 1420385965330488220,
  1421775095748260442, 1423165584728680377, 1424557433600415424, 1425950643693432385,
  1427345216338999023, 1428741152869684949, 1430138454619362953, 1431537122923210559,
  1432937159117710912, 1434338564540654337, 1435741340531139221, 1437145488429574014,
  1438551009577677897, 1439957905318482112, 1441366176996331516, 1442775825956885694,
  1444186853547120286, 1445599261115328327, 1447013050011121349, 1448428221585431164,
  1449844777190509859, 1451262718179933353, 1452682045908600061, 1454102761732734450,
  1455524867009887036, 1456948363098935717, 1458373251360087552, 1459799533154880313,
  1461227209846182706, 1462656282798196594, 1464086753376458105, 1465518622947838745,
  1466951892880546948, 1468386564544128747, 1469822639309470436, 1471260118548798346,
  1472699003635681070, 1474139295945030570, 1475580996853103288, 1477024107737501923,
  1478468629977176318, 1479914564952424794, 1481361914044895922, 1482810678637589197,
  1484260860114857028, 1485712459862404966, 1487165479267294810, 1488619919717944162,
  1490075782604128651, 1491533069316983262, 1492991781249003447, 1494451919794046457,
  1495913486347332677, 1497376482305447176, 1498840909066340599, 1500306768029331161,
  1501774060595105320, 1503242788165719546, 1504712952144601212, 1506184553936550596,
  1507657594947741764, 1509132076585724125, 1510608000259423100, 1512085367379143008,
  1513564179356566397, 1515044437604757155, 1516526143538160953, 1518009298572606580,
  1519493904125307715, 1520979961614864262, 1522467472461262794, 1523956438085879439,
  1525446859911479880, 1526938739362221575, 1528432077863654648, 1529926876842723216,
  1531423137727767392, 1532920861948523950, 1534420050936127655, 1535920706123113710,
  1537422828943417308, 1538926420832376962, 1540431483226734288, 1541938017564636221,
  1543446025285636569, 1544955507830696240, 1546466466642186122, 1547978903163887310,
  1549492818840993102, 1551008215120110112, 1552525093449259819, 1554043455277879682,
  1555563302056824915, 1557084635238369597, 1558607456276208003, 1560131766625456162,
  1561657567742653185, 1563184861085763044, 1564713648114174793, 1566243930288705677,
  1567775709071600909, 1569308985926536115, 1570843762318618220, 1572380039714387445,
  1573917819581817312, 1575457103390318192, 1576997892610736862, 1578540188715358505,
  1580083993177908486, 1581629307473553459, 1583176133078902703, 1584724471472009455,
  1586274324132372682, 1587825692540938194, 1589378578180100199, 1590932982533702855,
  1592488907087041161, 1594046353326863175, 1595605322741370236, 1597165816820220074,
  1598727837054526590, 1600291384936862515, 1601856461961259637, 1603423069623211461,
  1604991209419673881, 1606560882849066951, 1608132091411276221, 1609704836607653400,
  1611279119941019689, 1612854942915664891, 1614432307037350967, 1616011213813311809,
  1617591664752255909, 1619173661364366579, 1620757205161304615, 1622342297656209409,
  1623928940363699613, 1625517134799875363, 1627106882482319827, 1628698184930099879,
  1630291043663768535, 1631885460205365623, 1633481436078419557, 1635078972807948450,
  1636678071920462774, 1638278734943964698, 1639880963407951864, 1641484758843416936,
  1643090122782850715, 1644697056760241693, 1646305562311079607, 1647915640972355433,
  1649527294282563172, 1651140523781701841, 1652755331011276363, 1654371717514299123,
  1655989684835291964, 1657609234520286634, 1659230368116827670, 1660853087173972398,
  1662477393242293600, 1664103287873880177, 1665730772622339151, 1667359849042796993,
  1668990518691900959, 1670622783127820865, 1672256643910250196, 1673892102600407883,
  1675529160761039638, 1677167819956419725, 1678808081752352521, 1680449947716172732,
  1682093419416749169, 1683738498424484087, 1685385186311316064, 1687033484650720894,
  1688683395017712918, 1690334918988847468, 1691988058142221085, 1693642814057473966,
  1695299188315791517, 1696957182499905015, 1698616798194093835, 1700278036984186558,
  1701940900457563410, 1703605390203156267, 1705271507811451093, 1706939254874489942,
  1708608632985871179, 1710279643740752142, 1711952288735850036, 1713626569569443481,
  1715302487841374512, 1716980045153049694, 1718659243107441892, 1720340083309091384,
  1722022567364107859, 1723706696880171751, 1725392473466535792, 1727079898734026564,
  1728768974295046057, 1730459701763572999, 1732152082755164635, 1733846118886958720,
  1735541811777673971, 1737239163047612056, 1738938174318660046, 1740638847214290630,
  1742341183359564338, 1744045184381131319, 1745750851907231782, 1747458187567699328,
  1749167192993960951, 1750877869819039478, 1752590219677554240, 1754304244205723951,
  1756019945041367158, 1757737323823904463, 1759456382194358959, 1761177121795359790,
  1762899544271141927, 1764623651267548610, 1766349444432032456, 1768076925413657907,
  1769806095863101225, 1771536957432653825, 1773269511776222718, 1775003760549332510,
  1776739705409126735, 1778477348014370074, 1780216690025448578, 1781957733104373443,
  1783700478914779897, 1785444929121931423, 1787191085392719092, 1788938949395664890,
  1790688522800922389, 1792439807280278741, 1794192804507155570, 1795947516156611412,
  1797703943905343493, 1799462089431687950, 1801221954415622939, 1802983540538769303,
  1804746849484392790, 1806511882937405389, 1808278642584366214, 1810047130113484837,
  1811817347214621288, 1813589295579288496, 1815362976900653402, 1817138392873539177,
  1818915545194426331, 1820694435561454716, 1822475065674424632, 1824257437234799051,
  1826041551945704944, 1827827411511934841, 1829615017639948382, 1831404372037874539,
  1833195476415512726, 1834988332484334128, 1836782941957484150, 1838579306549783521,
  1840377427977729852, 1842177307959500077, 1843978948214950675, 1845782350465620780,
  1847587516434733068, 1849394447847195311, 1851203146429602153, 1853013613910237112,
  1854825852019074128, 1856639862487778458, 1858455647049709336, 1860273207439921306,
  1862092545395165555, 1863913662653891468, 1865736560956249512, 1867561242044091241,
  1869387707660971953, 1871215959552152475, 1873045999464600042, 1874877829146990305,
  1876711450349709764, 1878546864824856444, 1880384074326241439, 1882223080609391808,
  1884063885431551011, 1885906490551681580, 1887750897730465560, 1889597108730307617,
  1891445125315335929, 1893294949251403514, 1895146582306090899, 1897000026248707005,
  1898855282850291371, 1900712353883615258, 1902571241123184098, 1904431946345238380,
  1906294471327756090, 1908158817850454048, 1910024987694789234, 1911892982643961236,
  1913762804482913360, 1915634454998335068, 1917507935978662870, 1919383249214082099,
  1921260396496529133, 1923139379619692946, 1925020200379016666, 1926902860571699128,
  1928787361996697314, 1930673706454727245, 1932561895748265979, 1934451931681553383,
  1936343816060594136, 1938237550693158839, 1940133137388786233, 1942030577958784976,
  1943929874216234976, 1945831027975989169, 1947734041054675735, 1949638915270699435,
  1951545652444242940, 1953454254397269940, 1955364722953525147, 1957277059938537400,
  1959191267179620555, 1961107346505876148, 1963025299748193842, 1964945128739254310,
  1966866835313530570, 1968790421307289762, 1970715888558594475, 1972643238907305641,
  1974572474195082972, 1976503596265387408, 1978436606963483113, 1980371508136438585,
  1982308301633128655, 1984246989304236930, 1986187573002256235, 1988130054581491502,
  1990074435898061544, 1992020718809899504, 1993968905176756401, 1995918996860201577,
  1997870995723625365, 1999824903632240414, 2001780722453083250, 2003738454055016494,
  2005698100308730414, 2007659663086745372, 2009623144263412708, 2011588545714916076,
  2013555869319274994, 2015525116956345730, 2017496290507822643, 2019469391857240392,
  2021444422889975279, 2023421385493248792, 2025400281556126725, 2027381112969523613,
  2029363881626201849, 2031348589420776563, 2033335238249714294, 2035323830011336987,
  2037314366605823768, 2039306849935211385, 2041301281903396436, 2043297664416138471,
  2045295999381059993, 2047296288707649570, 2049298534307263164, 2051302738093126798,
  2053308901980336110, 2055317027885860792, 2057327117728544597, 2059339173429108882,
  2061353196910152619, 2063369190096155492, 2065387154913478795, 2067407093290368536,
  2069429007156956324, 2071452898445260704, 2073478769089190710, 2075506621024545861,
  2077536456189019720, 2079568276522200776, 2081602083965573780, 2083637880462522407,
  2085675667958331481, 2087715448400187856, 2089757223737183089, 2091800995920314765,
  2093846766902488277, 2095894538638519045, 2097944313085134738, 2099996092200975717,
  2102049877946599477, 2104105672284479311, 2106163477179008314, 2108223294596501596,
  2110285126505196285, 2112348974875254637, 2114414841678765811, 2116482728889747644,
  2118552638484149320, 2120624572439850919, 2122698532736667865, 2124774521356352253,
  2126852540282593296, 2128932591501020877, 2131014676999206436, 2133098798766665638,
  2135184958794859700, 2137273159077198059, 2139363401609037929, 2141455688387690071,
  2143550021412417461, 2145646402684438847, 2147744834206929632, 2149845317985024540,
  2151947856025819394, 2154052450338372893, 2156159102933708827, 2158267815824817415,
  2160378591026657524, 2162491430556158889, 2164606336432223888, 2166723310675729319,
  2168842355309527736, 2170963472358450552, 2173086663849310263, 2175211931810900001,
  2177339278273997980, 2179468705271368378, 2181600214837763563, 2183733809009925864,
  2185869489826588907, 2188007259328480725, 2190147119558325084, 2192289072560843710,
  2194433120382758062, 2196579265072790665, 2198727508681668219, 2200877853262122930,
  2203030300868894731, 2205184853558733060, 2207341513390398191, 2209500282424664785,
  2211661162724322338, 2213824156354178285, 2215989265381058448, 2218156491873810587,
  2220325837903306176, 2222497305542441737, 2224670896866141057, 2226846613951356524,
  2229024458877072234, 2231204433724306213, 2233386540576111301, 2235570781517576489,
  2237757158635831800, 2239945674020046962, 2242136329761435398, 2244329127953256009,
  2246524070690814501, 2248721160071466496, 2250920398194617533, 2253121787161727507,
  2255325329076311114, 2257531026043940514, 2259738880172246223, 2261948893570921104,
  2264161068351720818, 2266375406628466482, 2268591910517046006, 2270810582135417199,
  2273031423603609102, 2275254437043724209, 2277479624579939799, 2279706988338511042,
  2281936530447773226, 2284168253038142193, 2286402158242117455, 2288638248194284408,
  2290876525031316113, 2293116990891975071, 2295359647917114998, 2297604498249684379,
  2299851544034726469, 2302100787419383732, 2304352230552896952, 2306605875586610122,
  2308861724673969995, 2311119779970530974, 2313380043633953775, 2315642517824010760,
  2317907204702585933, 2320174106433678052, 2322443225183401072, 2324714563119988586,
  2326988122413794269, 2329263905237294541, 2331541913765090346, 2333822150173909371,
  2336104616642608711, 2338389315352174869, 2340676248485729083, 2342965418228526886,
  2345256826767960323, 2347550476293561950, 2349846368997005275, 2352144507072106983,
  2354444892714828708, 2356747528123281477, 2359052415497723931, 2361359557040568546,
  2363668954956380297, 2365980611451881099, 2368294528735950255, 2370610709019628004,
  2372929154516116412, 2375249867440782925, 2377572850011160810, 2379898104446951823,
  2382225632970029761, 2384555437804440015, 2386887521176404459, 2389221885314321003,
  2391558532448767593, 2393897464812503539, 2396238684640471295, 2398582194169800452,
  2400927995639806412, 2403276091291996597, 2405626483370069568, 2407979174119918575,
  2410334165789632888, 2412691460629500906, 2415051060892011492, 2417412968831856190,
  2419777186705932781, 2422143716773345279, 2424512561295406599, 2426883722535642551,
  2429257202759791401, 2431633004235808748, 2434011129233866644, 2436391580026358472,
  2438774358887899840, 2441159468095329910, 2443546909927716282, 2445936686666354110,
  2448328800594770094, 2450723253998724260, 2453120049166212180, 2455519188387466745,
  2457920673954961277, 2460324508163410417, 2462730693309773233, 2465139231693255883,
  2467550125615311618, 2469963377379646552, 2472378989292218332, 2474796963661240135,
  2477217302797182441, 2479640009012775703, 2482065084623012119, 2484492531945147409,
  2486922353298704813, 2489354551005475091, 2491789127389519631, 2494226084777173114,
  2496665425497044843, 2499107151880022748, 2501551266259272488, 2503997770970243231,
  2506446668350667206, 2508897960740563704, 2511351650482239517, 2513807739920292939,
  2516266231401615538, 2518727127275393052, 2521190429893109819, 2523656141608549230,
  2526124264777797279, 2528594801759243005, 2531067754913583379, 2533543126603823303,
  2536020919195279166, 2538501135055579727, 2540983776554670559, 2543468846064813604,
  2545956345960592504, 2548446278618911709, 2550938646419000921, 2553433451742416871,
  2555930696973045091, 2558430384497103027, 2560932516703141371, 2563437095982046721,
  2565944124727044251, 2568453605333699930, 2570965540199921850, 2573479931725964232,
  2575996782314427858, 2578516094370263190, 2581037870300773918, 2583562112515616516,
  2586088823426805128, 2588618005448712456, 2591149660998072424, 2593683792493982843,
  2596220402357906742, 2598759493013676369, 2601301066887493185, 2603845126407932309,
  2606391674005943848, 2608940712114855121, 2611492243170373762, 2614046269610588613,
  2616602793875974164, 2619161818409390996, 2621723345656088444, 2624287378063707266,
  2626853918082283634, 2629422968164247365, 2631994530764428575, 2634568608340057683,
  2637145203350768075, 2639724318258598323, 2642305955527996186, 2644890117625817716,
  2647476807021333478, 2650066026186227663, 2652657777594602084, 2655252063722977951,
  2657848887050299869, 2660448250057934949, 2663050155229678140, 2665654605051753112,
  2668261602012815370, 2670871148603954914, 2673483247318696243, 2676097900653003681,
  2678715111105283153, 2681334881176383078, 2683957213369597472, 2686582110190669503,
  2689209574147792381, 2691839607751612018, 2694472213515231029, 2697107393954207843,
  2699745151586563363, 2702385488932778745, 2705028408515801619, 2707673912861047416,
  2710322004496400261, 2712972685952216967, 2715625959761328811, 2718281828459045091
]

end Verif.FastExp
